{"id": "C01", "title": "generate_states enumerates a sector completely and in order", "statement": "generate_states(n, p) returns, in strictly increasing order and without repetition, exactly the n-bit integers with p bits set; its length is binomial(n, p).", "quantifier": "every n up to 32 (the width of the uint32 container) and every 0 <= p <= n, and every machine word width at least n used by the compiled bit trick", "why_tests_cant": "There are exponentially many words; a test can compare a few small sectors but not show that the successor bit trick never skips or repeats a pattern or overflows the container.", "anchors": ["edpyt/sector.py:permutations", "edpyt/sector.py:generate_states", "edpyt/sector.py:get_sector_dim"]}
{"id": "C02", "title": "generate_states rejects impossible particle numbers", "statement": "generate_states(n, p) raises an exception whenever p > n or p < 0, instead of returning states.", "quantifier": "every n and every integer p outside 0..n", "why_tests_cant": "An unbounded family of invalid arguments.", "anchors": ["edpyt/sector.py:generate_states"]}
{"id": "C03", "title": "binsearch is exact membership on sorted arrays", "statement": "For every ascending array, binsearch(a, s) terminates, returns an index i with a[i] == s when s occurs in a and -1 otherwise; on any array at all the result is -1 or a valid index holding s.", "quantifier": "all arrays (any length, any content) and all searched values", "why_tests_cant": "Search correctness depends on every array length and every position of the key, including the boundaries.", "anchors": ["edpyt/lookup.py:binsearch"]}
{"id": "C04", "title": "State lookup inverts state enumeration", "statement": "For the array produced by generate_states(n, p): binsearch(states, states[i]) == i for every i, and binsearch(states, s) == -1 exactly when s is not an n-bit word with p ones.", "quantifier": "all n <= 32, p <= n, indices and words", "why_tests_cant": "All matrix builders address rows and columns through this lookup; one wrong index in one sector corrupts a Hamiltonian silently.", "anchors": ["edpyt/sector.py:generate_states", "edpyt/lookup.py:binsearch"]}
{"id": "C05", "title": "Product-basis index maps are mutually inverse", "statement": "get_spin_indices and get_state_index are mutually inverse bijections between 0..dup*dwn-1 and pairs (iup, idw) with iup < dup, idw < dwn.", "quantifier": "all sector dimensions dup > 0, dwn and all indices", "why_tests_cant": "Unbounded dimensions.", "anchors": ["edpyt/lookup.py:get_spin_indices", "edpyt/lookup.py:get_state_index"]}
{"id": "C06", "title": "Sector numbering is a bijection and rejects bad sectors", "statement": "get_sector_index(n, nup, ndw) and get_num_spins(n, isct) are mutually inverse between (0..n)x(0..n) and 0..(n+1)^2-1, follow the lexicographic order of (nup, ndw) that is used to store neig_sector, and raise ValueError outside these ranges.", "quantifier": "all n, all integer pairs and all integer indices", "why_tests_cant": "Unbounded family; an off by one at the boundary only shows for particular n.", "anchors": ["edpyt/lookup.py:get_num_spins", "edpyt/lookup.py:get_sector_index", "edpyt/espace.py:_sector_iterator"]}
{"id": "C07", "title": "Sector dimensions add up to the Hilbert space", "statement": "The entries of get_espace_dim(n) sum to 4^n for both the Sz and the N symmetry, the entry of a sector equals the number of its basis states, and with a non-zero cap neig_max every entry is min(dim, neig_max).", "quantifier": "all n and all caps", "why_tests_cant": "Identity over all n; tests see a few sizes.", "anchors": ["edpyt/espace.py:get_espace_dim", "edpyt/sector.py:get_sector_dim"]}
{"id": "C08", "title": "Creation and annihilation act on exactly the right states", "statement": "cdg(s, pos, n) succeeds exactly if site pos is empty in s and then returns s with that bit set; c(s, pos, n) succeeds exactly if it is occupied and then returns s with that bit cleared; otherwise AssertionError is raised. All other bits are unchanged, so the particle number changes by exactly one, and c and cdg at the same site invert each other.", "quantifier": "all 32-bit states and all positions 0..31", "why_tests_cant": "2^32 states per position.", "anchors": ["edpyt/operators.py:flip", "edpyt/operators.py:cdg", "edpyt/operators.py:c", "edpyt/operators.py:check_full", "edpyt/operators.py:check_empty"]}
{"id": "C09", "title": "Fermionic signs follow one ordering convention", "statement": "The sign returned by cdg/c at site pos is minus one to the number of occupied sites in pos+1..n-1, and the sign of cdgc(s, i, j) is minus one to the number of occupied sites strictly between i and j.", "quantifier": "all states, site counts and positions", "why_tests_cant": "Sign errors appear only for particular occupation patterns.", "anchors": ["edpyt/operators.py:fsgn", "edpyt/operators.py:get_parity", "edpyt/operators.py:cdgc"]}
{"id": "C10", "title": "Canonical anticommutation relations", "statement": "The operators realised by cdg and c on the 2^n basis states satisfy c_i c_j + c_j c_i = 0, cdg_i cdg_j + cdg_j cdg_i = 0 and c_i cdg_j + cdg_j c_i = delta_ij, where a raised AssertionError means the zero vector, and cdg_i is the transpose of c_i.", "quantifier": "all n <= 32, all pairs of sites, all basis states", "why_tests_cant": "Algebraic identity over all states and site pairs.", "anchors": ["edpyt/operators.py:cdg", "edpyt/operators.py:c"]}
{"id": "C11", "title": "The fused hop cdgc equals annihilate then create", "statement": "For i != j with j occupied and i empty, cdgc(s, i, j, n) returns the sign and the state of cdg_i applied to c_j applied to s.", "quantifier": "all n <= 32, all states and site pairs", "why_tests_cant": "Two different sign routines must agree on every occupation pattern.", "anchors": ["edpyt/operators.py:cdgc", "edpyt/operators.py:get_parity", "edpyt/operators.py:fsgn"]}
{"id": "C12", "title": "Sector arithmetic of adding and removing electrons", "statement": "get_cdg_sector(n, nup, ndw, ispin) returns the sector with one more electron of that spin or raises OutOfHilbertError exactly when that spin is full; get_c_sector returns the sector with one less electron or raises exactly when that spin is empty; the two invert each other; any other ispin raises RuntimeError.", "quantifier": "all n, all sectors, all spins", "why_tests_cant": "Boundary behaviour for every n.", "anchors": ["edpyt/sector.py:get_cdg_sector", "edpyt/sector.py:get_c_sector"]}
{"id": "C13", "title": "intrep inverts binrep", "statement": "intrep(binrep(i, n)) == i for every i < 2^n, as the documentation of intrep ('Inverse of binrep') promises.", "quantifier": "all n and all i < 2^n, for the 'array' and the 'str' representation", "why_tests_cant": "A test on a palindromic bit pattern passes although the property fails.", "anchors": ["edpyt/lookup.py:binrep", "edpyt/lookup.py:intrep"]}
{"id": "C14", "title": "Sparse compression of the one-body matrix is faithful", "statement": "The CSR matrix extracted from an n x n one-body or exchange matrix holds exactly the off-diagonal elements whose absolute value exceeds 1e-7, each once, in the right row; its arrays have exactly the lengths allocated for them.", "quantifier": "all n and all real matrices", "why_tests_cant": "All matrices and thresholds positions; a miscount writes outside the buffers in compiled code.", "anchors": ["edpyt/ham_hopping.py:count_nnz_offdiag", "edpyt/ham_hopping.py:nnz_offdiag_csrmat", "edpyt/ham_hopping.py:empty_csrmat"]}
{"id": "C15", "title": "Hopping buffers are filled exactly", "statement": "While building the hopping matrix of a spin sector the number of stored elements is exactly the allocated number nnz_offdiag(H)*binomial(n-2, nup-1): no write outside the buffers, no element left uninitialised, and every looked up final state is found in the sector.", "quantifier": "all n, all particle numbers and all one-body matrices", "why_tests_cant": "The allocation is a closed formula while filling is a loop over states; the equality is combinatorial and must hold for every sparsity pattern.", "anchors": ["edpyt/ham_hopping.py:build_ham_hopping", "edpyt/ham_hopping.py:add_hoppings"]}
{"id": "C16", "title": "The hopping matrix is the second quantised hopping operator", "statement": "The dense form of the built hopping matrix has as its (row s, column f) element the matrix element <f| sum_{i!=j} H_ij cdg_i c_j |s> in the sector basis (elements of H below the 1e-7 threshold dropped); so for symmetric H it is exactly the matrix of the hopping operator.", "quantifier": "all n <= 32, all sectors, all one-body matrices", "why_tests_cant": "All matrices, all sectors, all signs.", "anchors": ["edpyt/ham_hopping.py:build_ham_hopping", "edpyt/ham_hopping.py:add_hoppings"]}
{"id": "C17", "title": "The many-body matrix is symmetric", "statement": "If H[0], H[1], the interaction, Jx and Jp are symmetric, the dense matrix of build_mb_ham is symmetric in every sector, so that eigh and ARPACK/Lanczos are applicable.", "quantifier": "all sectors, all symmetric parameters", "why_tests_cant": "Quantifies over all parameters and sectors.", "anchors": ["edpyt/build_mb_ham.py:build_mb_ham", "edpyt/matvec_product.py:todense"]}
{"id": "C18", "title": "Local energies follow the closed formula", "statement": "The diagonal built for a sector assigns to the basis state (up, dw) the value sum_i (e_i_up+mu) nup_i + (e_i_dw+mu) ndw_i + interaction, where the interaction is sum_i V_ii nup_i ndw_i (or V_ii (nup_i-1/2)(ndw_i-1/2) in hfmode) plus 1/2 sum_{i!=j} (n_i - z_i) V_ij (n_j - z_j).", "quantifier": "all sectors, parameters, hfmode flags and reference occupations z", "why_tests_cant": "Loop and mask arithmetic for all states and all parameters.", "anchors": ["edpyt/ham_local.py:_build_ham_local", "edpyt/ham_local.py:build_ham_local"]}
{"id": "C19", "title": "The N-conserving and Sz-conserving local energies agree", "statement": "The diagonal element of a Fock state is the same whether the sector is built with symmetry='N' or symmetry='Sz'.", "quantifier": "all Fock states and all parameters, including spin dependent one-body matrices", "why_tests_cant": "Agreement of two code paths for all inputs.", "anchors": ["edpyt/ham_local.py:_build_ham_local", "edpyt/ham_local.py:_N_build_ham_local"]}
{"id": "C20", "title": "Half-filling mode is particle-hole symmetric", "statement": "In hfmode with the default reference occupations and vanishing on-site energies the local energy of a state and of its particle-hole conjugate (all occupations inverted) are equal.", "quantifier": "all n, states and interaction matrices", "why_tests_cant": "Identity over all states and matrices.", "anchors": ["edpyt/ham_local.py:_build_ham_local"]}
{"id": "C21", "title": "Exchange and pair-hopping buffers are filled exactly", "statement": "When the non-local interaction of an Sz sector is built, exactly the allocated number (nnz(Jx)+nnz(Jp))*binomial(n-2,nup-1)*binomial(n-2,ndw-1) of elements is written; the 'lower than calculated' warning can never be issued and no write is outside the buffers.", "quantifier": "all n, sectors and exchange matrices", "why_tests_cant": "Combinatorial equality over all sparsity patterns.", "anchors": ["edpyt/ham_non_local.py:_build_ham_non_local"]}
{"id": "C22", "title": "Exchange and pair hopping are the documented operators", "statement": "In an Sz sector the non-local matrix together with its diagonal correction is the matrix of 1/2 sum_{i!=j,s,s'} Jx_ij cdg_is cdg_js' c_is' c_js + 1/2 sum_{i!=j,s} Jp_ij cdg_is cdg_i-s c_j-s c_js for symmetric Jx, Jp.", "quantifier": "all n, sectors, symmetric Jx and Jp", "why_tests_cant": "All states and signs.", "anchors": ["edpyt/ham_non_local.py:_build_ham_non_local"]}
{"id": "C23", "title": "N-conserving and Sz-conserving exchange agree", "statement": "The non-local matrix element between two Fock states is the same whether it is built with symmetry='N' or symmetry='Sz'.", "quantifier": "all pairs of Fock states, all symmetric Jx, Jp", "why_tests_cant": "Agreement of two code paths for all inputs; the dimer test is insensitive to the sign.", "anchors": ["edpyt/ham_non_local.py:_build_ham_non_local", "edpyt/ham_non_local.py:_N_build_ham_non_local"]}
{"id": "C24", "title": "matvec is multiplication by todense", "statement": "For the operators built for a sector, matvec_operator(*ops)(v) equals todense(*ops) @ v for every vector v.", "quantifier": "all operator sets, all dimensions, all vectors", "why_tests_cant": "Linear identity over all vectors; ARPACK and LAPACK results are interchangeable only because of it.", "anchors": ["edpyt/matvec_product.py:_matvec_operator", "edpyt/matvec_product.py:todense", "edpyt/ham_hopping.py:UpHopping", "edpyt/ham_hopping.py:DwHopping", "edpyt/ham_local.py:Local", "edpyt/ham_non_local.py:NonLocal"]}
{"id": "C25", "title": "build_espace works for every number of sites", "statement": "build_espace(H, V) with a valid H and V returns the eigen-space for every number of sites n >= 1.", "quantifier": "all n >= 1", "why_tests_cant": "A test at one n does not exercise n = 1.", "anchors": ["edpyt/matvec_product.py:todense", "edpyt/build_mb_ham.py:build_mb_ham", "edpyt/espace.py:build_espace"]}
{"id": "C26", "title": "Parallel sparse kernels are schedule independent and exact", "statement": "UPmultiply, DWmultiply and Multiply add exactly (1 x A) v, (A x 1) v and A v to the result, and the outcome is the same for every interleaving of the parallel loop iterations.", "quantifier": "all CSR matrices, vectors, dimensions and all thread schedules", "why_tests_cant": "Schedules cannot be enumerated by tests.", "anchors": ["edpyt/psparse.pyx:UPmultiply", "edpyt/psparse.pyx:DWmultiply", "edpyt/psparse.pyx:Multiply", "edpyt/cs_gaxpy.c:csr_gaxpy", "edpyt/cs_gaxpy.c:csr_saxpy"]}
{"id": "C27", "title": "The built Hamiltonian is the extended Hubbard Hamiltonian", "statement": "todense(*build_mb_ham(H, V, states_up, states_dw)) is, in the product basis of the sector, the matrix of sum_{ij,s} H[s]_ij cdg_is c_js + sum_i V_ii n_i,up n_i,dw + 1/2 sum_{i!=j} V_ij n_i n_j acting on the 2n-mode Fock space with one global fermionic ordering.", "quantifier": "all n >= 2, all sectors, all symmetric H and V (elements of H above the 1e-7 threshold)", "why_tests_cant": "Exponentially many basis states and all parameters.", "anchors": ["edpyt/build_mb_ham.py:build_mb_ham", "edpyt/ham_hopping.py", "edpyt/ham_local.py", "edpyt/matvec_product.py:todense"]}
{"id": "C28", "title": "build_espace covers all requested sectors and reports the minimum", "statement": "build_espace returns, in lexicographic sector order, exactly the sectors whose neig is not zero, with min(neig, dim) eigenvalues each, and egs is the minimum over all returned eigenvalues.", "quantifier": "all neig_sector settings, all sizes, any eigen-solver meeting its contract", "why_tests_cant": "All truncation settings.", "anchors": ["edpyt/espace.py:build_espace", "edpyt/espace.py:solve_sector"]}
{"id": "C29", "title": "Truncating the spectrum does not change the ground state energy", "statement": "If every sector keeps at least one eigenvalue, egs returned by build_espace is independent of neig_sector.", "quantifier": "all pairs of neig_sector settings", "why_tests_cant": "All settings and Hamiltonians.", "anchors": ["edpyt/espace.py:build_espace", "edpyt/espace.py:solve_sector"]}
{"id": "C30", "title": "screen_espace keeps exactly the thermally relevant states", "statement": "After screen_espace(espace, egs, beta, cutoff) exactly the eigenpairs with exp(-beta(E-egs)) > cutoff remain, each eigenvalue still paired with its own eigenvector column and in the old order; sectors without survivors are removed; a second call changes nothing; the ground state survives whenever cutoff < 1.", "quantifier": "all espaces, beta, cutoffs", "why_tests_cant": "Alignment and idempotence over all spectra.", "anchors": ["edpyt/espace.py:screen_espace"]}
{"id": "C31", "title": "adjust_neigsector applies its rule to each sector", "statement": "For an espace whose keys are in sector order, adjust_neigsector raises neig by one (at most to the sector dimension) for every sector holding exactly neig eigenvalues, lowers it by one (at least to 1) for absent sectors or those holding fewer, and leaves the others unchanged; all results lie in [1, dim] when the input does.", "quantifier": "all espaces and neig arrays", "why_tests_cant": "The merge of two iterators must stay synchronised for every subset of sectors.", "anchors": ["edpyt/espace.py:adjust_neigsector"]}
{"id": "C32", "title": "The screen/adjust cycle keeps its invariants", "statement": "The espace returned by build_espace and screened by screen_espace always has its keys in sector order, so that adjust_neigsector never fails with StopIteration and after any number of solve/screen/adjust rounds every neig stays within [1, dim].", "quantifier": "all histories of solve/screen/adjust rounds", "why_tests_cant": "Histories are unbounded.", "anchors": ["edpyt/espace.py:build_espace", "edpyt/espace.py:screen_espace", "edpyt/espace.py:adjust_neigsector", "edpyt/dmft.py:Gfimp.solve"]}
{"id": "C33", "title": "The non-interacting espace is the free-electron spectrum", "statement": "build_non_interacting_espace(ek) gives each product state the sum of the levels occupied in it, and egs is twice the sum of the negative levels.", "quantifier": "all level vectors ek with n*n <= 64", "why_tests_cant": "Sum over exponentially many states; shifts beyond the word size only occur for large n.", "anchors": ["edpyt/espace.py:build_non_interacting_espace", "edpyt/build_mb_ham.py:sum_diags_contrib"]}
{"id": "C34", "title": "Projections are the matrix elements of c and cdg and are adjoint", "statement": "project_exact_up/dw(pos, n, cdg, I, J) is the matrix <J|cdg_pos|I> between the eigenvectors of the two sectors in the Fock space with one global ordering of the operators, for up spin times the sign (-1)^ndw common to the whole sector, and equals the transpose of project_exact_up/dw(pos, n, c, J, I).", "quantifier": "all sectors, sites, eigenvector matrices", "why_tests_cant": "All states and signs.", "anchors": ["edpyt/gf_exact.py:project_exact_up", "edpyt/gf_exact.py:project_exact_dw", "edpyt/gf_lanczos.py:project_up", "edpyt/gf_lanczos.py:project_dw"]}
{"id": "C35", "title": "Spectral sum rule of the exact Green function", "statement": "For a complete espace (all sectors, orthonormal complete eigenvectors) the residues of the Green function of build_gf_exact are non-negative and sum to one.", "quantifier": "all Hamiltonians, sites, temperatures", "why_tests_cant": "All spectra and temperatures.", "anchors": ["edpyt/gf_exact.py:build_gf_exact"]}
{"id": "C36", "title": "Green functions are causal", "statement": "The imaginary part of gf(e, eta) is <= 0 for eta > 0 for the spectral representation with non-negative residues, and strictly negative when some residue is positive.", "quantifier": "all energies, broadenings and spectra", "why_tests_cant": "Continuum of arguments.", "anchors": ["edpyt/gf_lanczos.py:Gf", "edpyt/gf_lanczos.py:build_gf_coeff_sp"]}
{"id": "C37", "title": "build_gf_exact works for either spin", "statement": "build_gf_exact(H, V, espace, beta, egs, pos, ispin) returns the Green function of the requested spin for ispin = 0 and ispin = 1.", "quantifier": "all n and espaces", "why_tests_cant": "Only ispin=0 is exercised by tests.", "anchors": ["edpyt/gf_exact.py:build_gf_exact"]}
{"id": "C38", "title": "Continued fraction and spectral representation agree", "statement": "For the coefficients a, b of a Lanczos chain, the continued fraction evaluated by continued_fraction equals b0 times the (0,0) element of the resolvent of the tridiagonal matrix, hence the spectral representation built by build_gf_coeff_sp, for both signs and all non-real arguments.", "quantifier": "all chain lengths, coefficients, complex arguments off the real axis", "why_tests_cant": "Identity of functions of a complex variable for every chain.", "anchors": ["edpyt/continued_fraction.pyx", "edpyt/gf_lanczos.py:build_gf_coeff_cf", "edpyt/gf_lanczos.py:build_gf_coeff_sp"]}
{"id": "C39", "title": "The Lanczos driver terminates within its buffers", "statement": "For every matvec, start vector, maxn >= 2 and ND >= 1, build_sl_tridiag terminates after at most maxn steps without indexing outside its buffers; it returns coefficient arrays of equal length between 1 and maxn-1 or raises ZeroNormInitialVector.", "quantifier": "all matvecs, start vectors, tolerances, maxn and ND", "why_tests_cant": "Quantifies over arbitrary numerical behaviour of the recurrence.", "anchors": ["edpyt/lanczos.py:build_sl_tridiag"]}
{"id": "C40", "title": "Lanczos coefficients represent the operator exactly", "statement": "In exact arithmetic, for a symmetric matrix the vectors generated by the Lanczos steps are orthonormal, the returned a and b are the elements of the projected tridiagonal matrix, and when the recurrence ends with a vanishing b the continued fraction is the exact resolvent element <phi|(z-H)^-1|phi>.", "quantifier": "all symmetric matrices, start vectors and steps", "why_tests_cant": "Inductive property over unbounded step counts.", "anchors": ["edpyt/lanczos.py:_sl_step", "edpyt/lanczos.py:build_sl_tridiag", "edpyt/gf_lanczos.py:build_gf_lanczos"]}
{"id": "C41", "title": "Off-diagonal Green functions by polarisation", "statement": "_Gf2.evaluate returns for i != j the bilinear off-diagonal element recovered from the three diagonal ones and is symmetric in i and j.", "quantifier": "all matrices, vectors, site pairs", "why_tests_cant": "Identity over all operators.", "anchors": ["edpyt/gf2_lanczos.py:_Gf2", "edpyt/gf2_lanczos.py:build_gf_offdiag"]}
{"id": "C42", "title": "Item access of the two-point Green function is symmetric", "statement": "gf2[i, j] and gf2[j, i] give the same function for every pair of sites.", "quantifier": "all site pairs", "why_tests_cant": "All pairs and n.", "anchors": ["edpyt/gf2_lanczos.py:_Gf2.__getitem__", "edpyt/gf2_lanczos.py:build_gf2_lanczos"]}
{"id": "C43", "title": "Occupations sum to the particle number", "statement": "For normalised eigenvectors of a sector, get_evecs_occupation returns for each eigenstate values between 0 and 1 that sum to nup (ndw); both memory layouts give the same result; get_occupation is their Boltzmann average and also lies between 0 and 1.", "quantifier": "all sectors, eigenvectors, layouts, temperatures", "why_tests_cant": "All vectors.", "anchors": ["edpyt/observs.py:_get_evecs_occupation", "edpyt/observs.py:get_occupation"]}
{"id": "C44", "title": "Measuring occupations does not modify the eigen-space", "statement": "get_occupation(espace, ...) leaves the espace, in particular the shapes of the eigenvector arrays, unchanged.", "quantifier": "all espaces and memory layouts", "why_tests_cant": "Aliasing depends on layout.", "anchors": ["edpyt/observs.py:_get_evecs_occupation"]}
{"id": "C45", "title": "Distributed transposition is a bijection", "statement": "collect_dw turns the row-distributed matrix of the vector into the column-distributed one and collect_up undoes it on all ranks.", "quantifier": "all communicator sizes and block sizes", "why_tests_cant": "All process counts and data.", "anchors": ["edpyt/vector_transpose.py:collect_dw", "edpyt/vector_transpose.py:collect_up"]}
{"id": "C46", "title": "The distributed matvec equals the serial one", "statement": "Each rank's result of the MPI matvec is its slice of the serial matvec result, and the caller's vector is unchanged afterwards.", "quantifier": "all communicator sizes, operators, vectors", "why_tests_cant": "All process counts and data.", "anchors": ["edpyt/matvec_product.py:_matvec_operator_mpi", "edpyt/vector_transpose.py"]}
{"id": "C47", "title": "Distributed occupations equal the serial ones", "statement": "The sum over ranks computed by get_evecs_occupation with a communicator equals the serial result.", "quantifier": "all communicator sizes and vectors", "why_tests_cant": "All process counts.", "anchors": ["edpyt/observs.py:_get_evecs_occupation_mpi"]}
{"id": "C48", "title": "The impurity Hamiltonian reproduces the bath hybridisation", "statement": "The one-body matrix assembled from bath energies and couplings has as (0,0) resolvent element 1/(z - e0 - sum_k vk^2/(z-ek)), i.e. the non-interacting Green function reported by the impurity object.", "quantifier": "all bath sizes and parameters, all z off the poles", "why_tests_cant": "Identity for all bath sizes.", "anchors": ["edpyt/dmft.py:Gfimp.fit", "edpyt/dmft.py:Gfimp.free", "edpyt/dedlib.py:build_siam", "edpyt/fit_cg.py:_delta"]}
{"id": "C49", "title": "Dyson equations are consistent", "statement": "Re-inserting Sigma(z) = 1/free(z) - 1/gf(z) into the impurity Green function reproduces gf(z); for the lattice, Gfloc.Delta(z) of a hybridisation lattice is the given hybridisation and Weiss field and Delta are related by Weiss(z) = z + mu - Delta(z). With the impurity's self-energy and chemical potential in the lattice object, the bath reproduces the lattice hybridisation exactly when lattice and impurity Green function agree.", "quantifier": "all z and Green functions without zeros", "why_tests_cant": "Functional identity.", "anchors": ["edpyt/dmft.py:Gfimp.Sigma", "edpyt/dmft.py:Gfimp.__call__", "edpyt/dmft.py:Gfloc.Delta", "edpyt/dmft.py:Gfhybrid"]}
{"id": "C50", "title": "The DMFT loop ends with a verdict", "statement": "DMFT.__call__ runs at most max_iter+1 iterations, raises Converged exactly when the distance of two successive hybridisations falls below tol, and FailedToConverge when the iterations are exhausted.", "quantifier": "all sequences of hybridisations, tolerances and iteration limits", "why_tests_cant": "Unbounded histories.", "anchors": ["edpyt/dmft.py:DMFT.__call__", "edpyt/dmft.py:DMFT.it"]}
{"id": "C51", "title": "Non-causal hybridisations are clamped", "statement": "Before mixing, hybridisation values with positive imaginary part are replaced by values with imaginary part -1e-20.", "quantifier": "all hybridisations", "why_tests_cant": "All data.", "anchors": ["edpyt/dmft.py:DMFT.__call__"]}
{"id": "C52", "title": "The bath fit uses the exact gradient", "statement": "dChi2 is the gradient of Chi2 with respect to all bath energies and couplings.", "quantifier": "all data, all parameters away from poles", "why_tests_cant": "Derivative identity at every point.", "anchors": ["edpyt/fit_cg.py:_delta", "edpyt/fit_cg.py:_ddelta", "edpyt/fit_cg.py:_chi2", "edpyt/fit_cg.py:dChi2"]}
{"id": "C53", "title": "Initial bath energies are symmetric and sorted", "statement": "get_initial_bath(nbath) returns strictly increasing energies that are symmetric around zero, with equal couplings 1/sqrt(nbath).", "quantifier": "all nbath >= 2", "why_tests_cant": "All sizes; the failure appears only for large nbath.", "anchors": ["edpyt/fit_cg.py:get_initial_bath"]}
{"id": "C54", "title": "The C and the Python bath initialisation agree", "statement": "init_bath of the C backend writes the same energies and couplings as get_initial_bath for every nbath.", "quantifier": "all nbath", "why_tests_cant": "All sizes.", "anchors": ["edpyt_backend/bath.c:init_bath", "edpyt/fit_cg.py:get_initial_bath"]}
{"id": "C55", "title": "Rate matrices conserve probability", "statement": "Every column of a rate matrix sums to zero and its off-diagonal elements are non-negative.", "quantifier": "all transition elements, temperatures, chemical potentials and couplings", "why_tests_cant": "All dictionaries of matrix elements.", "anchors": ["edpyt/sqtunneling.py:build_rate_matrix", "edpyt/cotunneling.py:build_rate_matrix", "edpyt/sqtnl.py:build_rate_and_transition_matrices", "edpyt/cotnl.py:build_rate_and_transition_matrices"]}
{"id": "C56", "title": "Sequential tunnelling obeys detailed balance", "statement": "When both leads have the same chemical potential and each transition element is accompanied by its conjugate, the grand-canonical distribution exp(-beta(E-mu N)) is stationary for the sequential tunnelling rate matrix.", "quantifier": "all transition elements, temperatures, chemical potentials", "why_tests_cant": "Identity for all spectra.", "anchors": ["edpyt/sqtunneling.py:Gfe", "edpyt/sqtunneling.py:Gfh", "edpyt/sqtunneling.py:build_rate_matrix"]}
{"id": "C57", "title": "stationary_solution selects the stationary state", "statement": "For a rate matrix (columns sum to zero, off-diagonals non-negative) the eigenvalue closest to one is zero, so that the selected vector satisfies W p = 0; when the stationary state is unique the call returns a probability vector p with W p = 0 and elements summing to one.", "quantifier": "all rate matrices of any size", "why_tests_cant": "Spectral property of a matrix class.", "anchors": ["edpyt/rates.py:stationary_solution"]}
{"id": "C58", "title": "Currents reverse when the leads are exchanged", "statement": "The cotunnelling transition matrix changes sign when the extracting and the injecting lead are exchanged.", "quantifier": "all transition elements and parameters", "why_tests_cant": "All inputs.", "anchors": ["edpyt/cotunneling.py:build_transition_matrix"]}
{"id": "C59", "title": "Active sectors cover every projection", "statement": "find_active_sectors(n, ngs) of sequential tunnelling returns only valid sectors and contains every sector visited when transition elements of an espace with these ground state sectors are built, so that no KeyError can occur.", "quantifier": "all n and ground state sector lists", "why_tests_cant": "All lists.", "anchors": ["edpyt/sqtunneling.py:find_active_sectors", "edpyt/sqtunneling.py:get_active_neig", "edpyt/sqtunneling.py:build_transition_elements"]}
{"id": "C60", "title": "Cotunnelling active sectors are valid", "statement": "find_active_sectors/get_active_neig of cotunnelling return valid sectors for every list of ground state sectors.", "quantifier": "all n and lists", "why_tests_cant": "Boundary sectors are not tested.", "anchors": ["edpyt/cotunneling.py:find_active_sectors", "edpyt/cotunneling.py:get_active_neig"]}
{"id": "C61", "title": "Charge transitions reach every adjacent sector", "statement": "In the N-symmetric tunnelling code build_transition_elements connects the sector N with N+1 and N-1 whenever these exist (0 <= N' <= 2n).", "quantifier": "all n and N", "why_tests_cant": "Boundary behaviour for all N.", "anchors": ["edpyt/sqtnl.py:build_transition_elements", "edpyt/cotnl.py:build_transition_elements"]}
{"id": "C62", "title": "The thermal factor of cotunnelling is continuous", "statement": "The factor G(beta, z) = z/(exp(beta z)-1) is positive, obeys G(beta,z) = exp(-beta z) G(beta,-z) and takes its limit 1/beta at z = 0.", "quantifier": "all temperatures and energies", "why_tests_cant": "Continuum of arguments.", "anchors": ["edpyt/cotnl.py:G"]}
{"id": "C63", "title": "The cotunnelling integrand uses the product of Fermi factors", "statement": "cotnl's numerical integration uses nF(beta(e-mu_extract)) * nF(-beta(e-mu_inject)) as thermal weight.", "quantifier": "all energies, temperatures, chemical potentials", "why_tests_cant": "Continuum of arguments.", "anchors": ["edpyt/cotnl.py:Sigma.integrate"]}
{"id": "C64", "title": "Thermodynamic entropy bounds", "statement": "The entropy computed from a spectrum equals -k sum p ln p of the Boltzmann weights and lies between 0 and k ln(number of states), independent of the reference energy.", "quantifier": "all spectra and temperatures", "why_tests_cant": "All spectra.", "anchors": ["edpyt/dedlib.py:get_entropy"]}
{"id": "C65", "title": "Inverse-CDF sampling draws every bin with its probability", "statement": "RandomSampler draws the i-th value exactly when the uniform number lies in an interval whose length is the normalised i-th weight, and never indexes outside the grid.", "quantifier": "all weight vectors and all uniform numbers in [0,1)", "why_tests_cant": "Continuum of draws.", "anchors": ["edpyt/dedlib.py:RandomSampler", "edpyt/dedlib.py:cumsum"]}
{"id": "C66", "title": "The DED impurity model reproduces the sampled Green function", "statement": "If the bath energies are the zeros of the sampled G0 and the couplings -1/G0', the impurity model's non-interacting Green function equals G0 and its level is the mean of the poles.", "quantifier": "all sets of distinct poles", "why_tests_cant": "Identity of rational functions.", "anchors": ["edpyt/dedlib.py:Gf0", "edpyt/dedlib.py:Gfimp"]}
{"id": "C67", "title": "Line minimisation never increases the objective", "statement": "The bracket returned by mnbrak encloses a point not above its ends, and dbrent/dlinmin return a value not larger than the start value.", "quantifier": "all objective functions", "why_tests_cant": "All functions.", "anchors": ["edpyt_backend/mnbrak.c", "edpyt_backend/dbrent.c", "edpyt_backend/dlinmin.c", "edpyt_backend/frprmn.c"]}
{"id": "C68", "title": "MPI sampling weighs every sample equally", "statement": "The distributed DED average equals the plain average over all N samples for every number of ranks.", "quantifier": "all N and rank counts", "why_tests_cant": "All combinations.", "anchors": ["edpyt/ded.py"]}
{"id": "C69", "title": "Printed Fock states are unambiguous", "statement": "The text printed for a Fock state determines the state.", "quantifier": "all n and states", "why_tests_cant": "Exponentially many states.", "anchors": ["edpyt/eshow.py:fock"]}
{"id": "C70", "title": "gram_schmidt_rows orthogonalises", "statement": "The rows returned by gram_schmidt_rows are mutually orthogonal and span the same space as the input rows.", "quantifier": "all matrices with independent rows", "why_tests_cant": "All matrices.", "anchors": ["edpyt/lanczos.py:gram_schmidt_rows"]}
{"id": "C71", "title": "Eigen-solver dispatch always gives valid parameters", "statement": "solve_sector calls ARPACK only with 0 < nev < ncv <= n, and otherwise LAPACK, and always returns min(k, d) eigenpairs.", "quantifier": "all dimensions d >= 1 and requested numbers 1 <= k <= d", "why_tests_cant": "All dimensions.", "anchors": ["edpyt/espace.py:solve_sector", "edpyt/eigh_arpack.py:eigsh"]}
{"id": "C72", "title": "matsum_gf leaves the chemical potential unchanged", "statement": "matsum_gf evaluates the occupation at a trial mu and restores the Green function's own mu afterwards, on normal return and on exceptions.", "quantifier": "all Green functions, including ones that raise", "why_tests_cant": "All behaviours of the integrand.", "anchors": ["edpyt/integrate_gf.py:matsum_gf"]}
{"id": "C73", "title": "Distributed Lanczos equals serial Lanczos", "statement": "With a communicator, every rank obtains from the Lanczos step and from build_sl_tridiag exactly the coefficients a, b (or the exception) that the serial call computes from the whole vector, and the rank's Lanczos vectors are its blocks of the serial ones.", "quantifier": "all communicator sizes, vectors, Hermitian or other operators whose distributed product is the block form of the serial one, and all iteration histories", "why_tests_cant": "All process counts, data and iteration histories.", "anchors": ["edpyt/lanczos.py:_sl_step_mpi", "edpyt/lanczos.py:sl_step", "edpyt/lanczos.py:build_sl_tridiag"]}
{"id": "C74", "title": "DMFT can be initialised with the lattices of the package", "statement": "DMFT(gfimp, gfloc).initialize(U, Sigma, mu) succeeds for gfloc a Gfhybrid or Gfhilbert object, and sets the impurity level to ed - mu with mu = U/2 by default.", "quantifier": "all hybridisations, Hilbert transforms, self-energies and chemical potentials", "why_tests_cant": "Must hold for every lattice object.", "anchors": ["edpyt/dmft.py:DMFT.initialize", "edpyt/dmft.py:Gfhybrid", "edpyt/dmft.py:Gfhilbert", "edpyt/nano_dmft.py:Gfloc.ed"]}
{"id": "C75", "title": "DMFT with default arguments reaches a verdict", "statement": "A DMFT object built with only gfimp and gfloc reaches Converged or FailedToConverge when it is solved.", "quantifier": "all hybridisations and solver results", "why_tests_cant": "All histories.", "anchors": ["edpyt/dmft.py:DMFT.step", "edpyt/dmft.py:DMFT.__call__"]}
{"id": "C76", "title": "Tunnelling matrix elements are exact", "statement": "project of the N-conserving tunnelling code returns the matrix elements <j|op|k> of the ladder operator of any site and spin between the eigenstates of two adjacent sectors, and the elements of creation and annihilation are each other's transposes.", "quantifier": "all sites, spins, numbers of sites up to 16, pairs of adjacent sectors and eigenvectors", "why_tests_cant": "The number of basis states and signs grows exponentially; tests cover a few small sectors.", "anchors": ["edpyt/cotnl.py: project", "edpyt/operators.py: c, cdg"]}
{"id": "C77", "title": "Sequential elements hold the amplitudes of both directions", "statement": "For each pair of eigenstates of two sectors joined by build_transition_elements, the returned dictionary holds for each spin the exact amplitudes on all sites and the same energy difference for adding and for removing the electron.", "quantifier": "all complete spectra, electron numbers and pairs of states", "why_tests_cant": "The dictionary is assembled in four passes that overwrite and append; tests look at few keys.", "anchors": ["edpyt/sqtnl.py: build_transition_elements, excite_electron, excite_hole"]}
{"id": "C78", "title": "N-conserving sequential rates obey detailed balance", "statement": "For each lead the rate of adding an electron equals the rate of removing it times exp(-beta (E - mu)).", "quantifier": "all spectra, temperatures, chemical potentials and couplings", "why_tests_cant": "The relation is a law over a continuum of energies; a cutoff breaks it only far away.", "anchors": ["edpyt/sqtnl.py: nF, Gfe, Gfh, build_rate_and_transition_matrices"]}
{"id": "C79", "title": "Rate and transition matrix have the same states", "statement": "The rate matrix and the transition matrix returned together have the same states as rows and columns, in the same order, so that the current T p is defined.", "quantifier": "all dictionaries of transition elements", "why_tests_cant": "The shape depends on which keys occur; tests use dictionaries with all keys.", "anchors": ["edpyt/cotnl.py: build_rate_and_transition_matrices, dict_to_matrix", "edpyt/sqtnl.py: build_rate_and_transition_matrices"]}
{"id": "C80", "title": "Line search finds the minimum of a function with one minimum", "statement": "For a function with a single minimum inside the bracket, dbrent returns a point near that minimum, and its bracket never loses it.", "quantifier": "all functions with one minimum, all brackets and all numbers of passes", "why_tests_cant": "The bracket must be right after every history of trial points.", "anchors": ["edpyt_backend/dbrent.c:dbrent"]}
{"id": "C81", "title": "Compiled hybridisation, objective and gradient equal the Python ones", "statement": "The C library computes the same hybridisation, objective and gradient as fit_cg.py for the same parameters, and the slope used by its line search is the derivative of the function that it minimises.", "quantifier": "all bath sizes, parameters, targets, frequencies and temperatures", "why_tests_cant": "Equality of functions on a continuum.", "anchors": ["edpyt_backend/bath.c:delta", "edpyt_backend/bath.c:ddelta", "edpyt_backend/bath.c:chi2", "edpyt_backend/bath.c:dchi2", "edpyt_backend/df1dim.c:df1dim"]}
{"id": "C82", "title": "The compiled fit never worsens its objective", "statement": "If fit returns, the reported value is the objective at the returned parameters and is not larger than at the start.", "quantifier": "all starts, targets, temperatures and histories of line searches", "why_tests_cant": "All histories of the minimiser.", "anchors": ["edpyt_backend/fit.c:fit", "edpyt_backend/frprmn.c:frprmn"]}
{"id": "C83", "title": "fit_hybrid is a function of its arguments", "statement": "Two calls of fit_hybrid of fit_wrap.py with equal arguments return equal parameters.", "quantifier": "all arguments and all contents of memory", "why_tests_cant": "Depends on memory contents that tests do not control.", "anchors": ["edpyt_backend/fit_wrap.py:fit_hybrid", "edpyt_backend/fit.c:fit"]}
{"id": "C84", "title": "eprint lists every eigenstate", "statement": "eprint prints, in ascending order of energy, every eigenpair of the given space once, each with the coefficients beside the texts of its basis states.", "quantifier": "all spaces returned by build_espace", "why_tests_cant": "Exponentially many states and all spectra.", "anchors": ["edpyt/eshow.py:eprint"]}
{"id": "C85", "title": "matsum_gf tends to the occupation", "statement": "For a Green function with poles e_j and weights of sum one, matsum_gf at chemical potential mu tends to the sum of the weights times the Fermi function of e_j - mu as the number of frequencies grows.", "quantifier": "all pole positions, weights, chemical potentials and temperatures", "why_tests_cant": "A limit over the number of frequencies.", "anchors": ["edpyt/integrate_gf.py:matsum_gf"]}
{"id": "C86", "title": "siam_solve returns the mean of exactly N accepted samples", "statement": "When siam_solve returns, its self-energy, occupations and entropy are the mean over the first N trials that meet the DED condition; it returns if trials keep meeting it.", "quantifier": "all sequences of trials and all N", "why_tests_cant": "All random histories.", "anchors": ["edpyt/dedlib.py:siam_solve"]}
{"id": "C87", "title": "Ranks of the DED script use different random numbers", "statement": "No pass of the random sequence is used by two ranks.", "quantifier": "all acceptance histories, sample numbers and rank counts", "why_tests_cant": "Depends on the random acceptance history.", "anchors": ["edpyt/ded.py"]}
{"id": "C88", "title": "moam_solve returns the mean for each impurity", "statement": "For each impurity moam_solve returns the mean over the trials that meet that impurity's condition.", "quantifier": "all sequences of trials and numbers of impurities", "why_tests_cant": "All random histories.", "anchors": ["edpyt/dedlib.py:moam_solve"]}
{"id": "C89", "title": "moam_solve accepts its documented arguments", "statement": "moam_solve with the default, scalar interaction returns a result.", "quantifier": "all interactions, trials and sample numbers", "why_tests_cant": "All arguments.", "anchors": ["edpyt/dedlib.py:moam_solve"]}
{"id": "C90", "title": "get_occupation is the expectation value", "statement": "get_occupation returns the expectation value of the number of electrons on a site in an eigenvector, and over all sites these add up to the electron number of the sector.", "quantifier": "all sectors, vectors and sites", "why_tests_cant": "All vectors.", "anchors": ["edpyt/dedlib.py:get_occupation"]}
{"id": "C91", "title": "build_moam keeps impurities apart", "statement": "The one-particle matrix of build_moam holds each impurity with its own bath; its resolvent at an impurity is the Green function of that impurity, and between impurities it vanishes.", "quantifier": "all numbers of impurities and bath sites, all parameters and frequencies", "why_tests_cant": "All parameters and sizes.", "anchors": ["edpyt/dedlib.py:build_moam"]}
{"id": "C92", "title": "build_gf_exact computes the thermal Green function", "statement": "For an untruncated espace of a Hamiltonian, the object returned by build_gf_exact, called at energy e and broadening eta, is the thermal Green function <<c_i; c_i^dagger>> at e+i*eta of that Hamiltonian on the whole Fock space at the given inverse temperature, independent of the reference energy and of the eigenbasis chosen.", "quantifier": "all Hamiltonians, sizes, sites, temperatures, reference energies, energies and non-zero broadenings, all eigenbases", "why_tests_cant": "A test compares a few frequencies of a small system with another implementation that shares the same conventions.", "anchors": ["edpyt/gf_exact.py:build_gf_exact", "edpyt/gf_exact.py:Gf", "edpyt/espace.py:build_espace"]}
{"id": "C93", "title": "build_gf2_exact computes the matrix of thermal Green functions", "statement": "For an untruncated espace of a Hamiltonian and either spin, entry (i,j) of the object returned by build_gf2_exact, called at e and eta, is the thermal Green function <<c_i; c_j^dagger>> at e+i*eta, and the diagonal for spin up agrees with build_gf_exact.", "quantifier": "all Hamiltonians, sizes, pairs of sites, spins, temperatures, reference energies, energies and non-zero broadenings, all eigenbases", "why_tests_cant": "All Hamiltonians and eigenbases.", "anchors": ["edpyt/gf2_exact.py:build_gf2_exact", "edpyt/gf2_exact.py:Gf2"]}
{"id": "C94", "title": "Sequential tunnelling currents obey charge conservation", "statement": "For transition elements of an espace, the two lead currents computed from build_transition_matrix add up to the rate of change of the mean charge under build_rate_matrix; in every stationary state the currents of the two leads are opposite; and in the grand-canonical state of its own chemical potential a lead carries no current.", "quantifier": "all espaces of a Hamiltonian, temperatures, chemical potentials, couplings and occupation vectors", "why_tests_cant": "A test evaluates one device; conservation must hold for every device, bias and population.", "anchors": ["edpyt/sqtunneling.py:build_transition_matrix", "edpyt/sqtunneling.py:build_rate_matrix", "edpyt/sqtunneling.py:build_transition_elements", "edpyt/rates.py:stationary_solution"]}
{"id": "C95", "title": "Sequential tunnelling obeys the second law", "statement": "In every stationary state with positive populations, the current computed from build_transition_matrix flows from the lead of higher to the lead of lower chemical potential: (mu0-mu1)*I0 >= 0.", "quantifier": "all espaces, positive inverse temperatures, chemical potentials, couplings and positive stationary populations", "why_tests_cant": "An inequality over all devices and biases.", "anchors": ["edpyt/sqtunneling.py:build_transition_matrix", "edpyt/sqtunneling.py:build_rate_matrix"]}
{"id": "C96", "title": "Cotunnelling elements are second-order amplitudes", "statement": "For an untruncated espace, the elements for one initial sector and one pair of spins are one for each pair of an initial and a final eigenstate, and calling an element at energy z with the couplings of two leads gives the square of the sum of <F|C (z+E_I-H)^-1 C^dagger|I> and <F|C^dagger (z-E_I+H)^-1 C|I>, with the fermionic operators and the Hamiltonian of the whole Fock space; an order that leaves the Hilbert space contributes nothing.", "quantifier": "all Hamiltonians, eigenbases, sectors, spins, couplings, lead pairs and non-resonant energies", "why_tests_cant": "All Hamiltonians, eigenbases and energies; signs of fermionic operators cancel in symmetric test cases.", "anchors": ["edpyt/cotunneling.py:project_add", "edpyt/cotunneling.py:project_sub", "edpyt/cotunneling.py:project_sector", "edpyt/cotunneling.py:Gf2", "edpyt/cotunneling.py:Sigma"]}
{"id": "C97", "title": "The approximate cotunnelling rate is the phase space integral at a fixed amplitude", "statement": "The approximate rate of an element equals its squared amplitude at the middle of the bias window times the integral over all energies of the Fermi factor of the extracting lead and the hole factor of the injecting lead.", "quantifier": "all elements, leads, couplings, temperatures and chemical potentials", "why_tests_cant": "An identity between an improper integral and a closed form with special cases at all temperatures and biases.", "anchors": ["edpyt/cotunneling.py:_Sigma.approximate", "edpyt/cotunneling.py:_Sigma.G"]}
{"id": "C98", "title": "build_gf_lanczos computes the thermal Green function up to the Lanczos error", "statement": "For an untruncated espace of a Hamiltonian, build_gf_lanczos returns for every site, spin, representation and both settings of separate; the sectors that it replaces in espace are again complete sets of eigenpairs; and the returned object, called at e and eta, differs from the thermal Green function <<c_i; c_i^dagger>> at e+i*eta by at most eps/eta^2 + 2 delta^2/|eta|, with eps the largest residual of its Lanczos runs (at most delta when the chains are not cut short). With separate the electron and the hole part obey the same bound.", "quantifier": "all admissible Hamiltonians, numbers of sites, sites, spins, temperatures, energies, broadenings, eigenbases and Lanczos histories", "why_tests_cant": "All spectra, eigenbases and iteration histories; the bound is a statement over a continuum of energies.", "anchors": ["edpyt/gf_lanczos.py:build_gf_lanczos", "edpyt/gf_lanczos.py:Gf", "edpyt/lanczos.py:build_sl_tridiag", "edpyt/espace.py:solve_sector"]}
{"id": "C99", "title": "build_gf2_lanczos computes the whole matrix of thermal Green functions", "statement": "For an untruncated espace of a Hamiltonian, build_gf2_lanczos returns for both spins and both settings of separate, and the returned array, evaluated at e and eta, holds in entry (i, j) the thermal Green function <<c_i; c_j^dagger>> at e+i*eta up to 2 eps/eta^2 + 3 delta^2/|eta|, with eps the largest residual of its Lanczos runs.", "quantifier": "all admissible Hamiltonians, numbers of sites, spins, temperatures, energies, broadenings, eigenbases and Lanczos histories", "why_tests_cant": "All spectra, eigenbases and iteration histories over a continuum of energies.", "anchors": ["edpyt/gf2_lanczos.py:build_gf2_lanczos", "edpyt/gf_lanczos.py:build_gf_offdiag", "edpyt/gf2_lanczos.py:_Gf2"]}
{"id": "C100", "title": "integrate_gf computes the occupation", "statement": "integrate_gf of a Green function with any finite set of real poles and weights returns the sum of the weights times the Fermi function at the poles, at temperature T and chemical potential mu, up to an explicit error: that of the 2*nzp-th convergent of the continued fraction of tanh, which tends to zero with nzp, and that of replacing infinity by 1e10. For non-negative weights that sum to one the result never exceeds 1 and is not below 0 by more than the second error.", "quantifier": "all pole positions, weights, temperatures, chemical potentials and numbers of points, all outcomes of the eigen-solver", "why_tests_cant": "Convergence and bounds over a continuum of poles and temperatures and all numbers of points; the poles and residues come from an eigenvalue problem of unbounded size.", "anchors": ["edpyt/integrate_gf.py:zero_fermi", "edpyt/integrate_gf.py:integrate_gf"]}
{"id": "C101", "title": "Two routes to the occupation agree", "statement": "For every complete eigen-espace of a Hamiltonian, get_occupation returns tr(e^{-beta H} n)/tr(e^{-beta H}) for every site and spin, and integrate_gf applied to the Green function that build_gf_exact builds from the same espace returns the same number up to an explicit error that tends to W^2/(2*(1e20+W^2)) as the number of points grows, W being the largest excitation energy.", "quantifier": "every Hamiltonian, espace, site, temperature, reference energy, number of points, memory order of the eigenvector arrays", "why_tests_cant": "the equality is detailed balance and has to hold for every Hamiltonian and temperature; tests compare two numbers at one parameter set", "anchors": ["edpyt/integrate_gf.py:integrate_gf", "edpyt/observs.py:get_occupation", "edpyt/gf_exact.py:build_gf_exact"]}
{"id": "C102", "title": "The nano lattice Green function solves the Dyson equation", "statement": "Calling the local lattice Green function returns, for every inequivalent site and every frequency, the corresponding diagonal element of the inverse of (z+mu)S - H - Hybrid(z) - Sigma(z), with the impurity self-energies distributed to all equivalent sites.", "quantifier": "all lattices, overlaps, hybridisations, self-energies, partitions into equivalent sites and lists of frequencies", "why_tests_cant": "All sites, partitions and frequencies; which iteration chunks numpy makes depends on the shapes.", "anchors": ["edpyt/nano_dmft.py:Gfloc.__call__, Gfloc.free"]}
{"id": "C103", "title": "Distributing the sites over MPI ranks does not change the lattice Green function", "statement": "Every rank computes exactly its own share of the inequivalent sites with the values of the serial run, and the shares cover all sites.", "quantifier": "all lattices, self-energies, numbers of ranks and of sites", "why_tests_cant": "All numbers of ranks.", "anchors": ["edpyt/nano_dmft.py:_get_idx_world, _get_sigma_method, Gfloc.__call__"]}
{"id": "C104", "title": "The lattice Green function is causal", "statement": "For hermitian H, positive definite overlap, causal hybridisation and causal self-energy, the matrix that is inverted in the upper half plane is never singular and every local Green function has a negative imaginary part.", "quantifier": "all causal inputs and all frequencies of the upper half plane", "why_tests_cant": "Inequality on a continuum.", "anchors": ["edpyt/nano_dmft.py:Gfloc.__call__"]}
{"id": "C105", "title": "The nano hybridisation is causal", "statement": "For hermitian H, positive definite overlap, causal hybridisation and causal self-energy, Delta(z) has no positive imaginary part in the upper half plane, so that a bath can be fitted.", "quantifier": "all causal inputs and all frequencies of the upper half plane", "why_tests_cant": "Inequality on a continuum.", "anchors": ["edpyt/nano_dmft.py:Gfloc.Delta, Gfloc.Weiss"]}
{"id": "C106", "title": "Without interaction everything reduces to the one-body matrix", "statement": "With a zero interaction and no exchange terms, the Green functions (exact, matrix, and Lanczos up to its stated error) are the elements of the resolvent of the one-body matrix and the occupations are the Fermi-weighted sums over its levels, at every temperature.", "quantifier": "all one-body matrices, sites, spins, frequencies off the real axis, temperatures", "why_tests_cant": "Many-body and one-body diagonalisation are different algorithms of unbounded size; their agreement must hold for every matrix.", "anchors": ["edpyt/gf_exact.py:build_gf_exact", "edpyt/gf2_exact.py:build_gf2_exact", "edpyt/gf_lanczos.py:build_gf_lanczos", "edpyt/observs.py:get_occupation"]}
{"id": "C107", "title": "The impurity self-energy is the local self-energy of the fitted impurity problem", "statement": "After any history of calls that ends with a fit and updates of the chemical potential, Sigma(z) of the impurity object, together with the Green functions of the impurity problem it solves, satisfies Dyson's equation of the fitted impurity Hamiltonian with a self-energy on the impurity site only (couplings zero or above the 1e-7 cut of the Hamiltonian builder; below it the cut couplings are added back). With a Lanczos Green function the deviation is bounded.", "quantifier": "all histories, bath parameters, interactions, temperatures, spins and frequencies off the real axis", "why_tests_cant": "That a single-site quantity satisfies the full matrix equation is a theorem about all impurity problems; tests see one bath.", "anchors": ["edpyt/dmft.py:Gfimp.Sigma, Gfimp.free, Gfimp.solve", "edpyt/gf2_exact.py:build_gf2_exact"]}
{"id": "C108", "title": "Without interaction the impurity self-energy is zero", "statement": "With U = 0 the self-energy computed by the impurity object from the exact Green function of its impurity problem is zero.", "quantifier": "all baths, histories, temperatures and frequencies off the real axis", "why_tests_cant": "All baths, including arbitrarily small couplings.", "anchors": ["edpyt/dmft.py:Gfimp.Sigma", "edpyt/ham_hopping.py", "edpyt/build_mb_ham.py"]}
{"id": "C109", "title": "Spin-independent input gives spin-independent results", "statement": "If the one-body arrays of the two spins agree, the Green functions and occupations of the two spins agree (exactly for the exact solvers, up to the stated error for Lanczos), so that twice the spin-up occupation is the occupation of a site.", "quantifier": "all spin-independent inputs, temperatures, frequencies, choices of eigenvectors in degenerate levels", "why_tests_cant": "Degenerate eigenvectors and Lanczos runs differ between the two spin calls; equality must hold for all of them.", "anchors": ["edpyt/gf2_exact.py:build_gf2_exact", "edpyt/gf_lanczos.py:build_gf_lanczos", "edpyt/observs.py:get_occupation", "edpyt/dmft.py:Gfimp.integrate"]}
{"id": "C110", "title": "Equivalent sites have equal Green functions and occupations", "statement": "If a permutation of the sites leaves the input unchanged, a site and its image have the same Green function and the same occupations. For the Green functions of build_gf_lanczos the same holds up to the errors of the Lanczos runs.", "quantifier": "all inputs and all their site symmetries", "why_tests_cant": "All symmetries of all Hamiltonians.", "anchors": ["edpyt/gf_exact.py:build_gf_exact", "edpyt/gf2_exact.py:build_gf2_exact", "edpyt/observs.py:get_occupation", "edpyt/nano_dmft.py:Gfloc"]}
{"id": "C111", "title": "Particle-hole symmetric input gives half filling", "statement": "For input symmetric under exchange of particles and holes (half-filled bipartite lattice in half-filling mode or with levels at -U/2; impurity with mu = U/2 and a bath symmetric under e -> -e) invariant sites are half filled for each spin at every temperature, their Green functions are odd, and the impurity self-energy obeys Sigma(-z) = U - Sigma(z). For the Green functions of build_gf_lanczos the same holds up to the errors of the Lanczos runs.", "quantifier": "all particle-hole symmetric inputs, temperatures and frequencies", "why_tests_cant": "Holds at every temperature and size.", "anchors": ["edpyt/observs.py:get_occupation", "edpyt/gf_exact.py:build_gf_exact", "edpyt/ham_local.py", "edpyt/shared.py:params", "edpyt/dmft.py:Gfimp.Sigma"]}
{"id": "C112", "title": "An isolated site has the atomic Green function and occupations", "statement": "A site without hops above the cut, inter-site interaction or exchange has, whatever the other sites are, the occupations of a single level with energies 0, e_up, e_dw, e_up+e_dw+U, and the Green function (1-n)/(z-e) + n/(z-e-U) with n the occupation of the other spin. For the Green functions of build_gf_lanczos the same holds up to the errors of the Lanczos runs.", "quantifier": "all inputs with an isolated site, both spins, temperatures and frequencies", "why_tests_cant": "The other sites are arbitrary.", "anchors": ["edpyt/gf_exact.py:build_gf_exact", "edpyt/gf2_exact.py:build_gf2_exact", "edpyt/observs.py:get_occupation", "edpyt/ham_local.py", "edpyt/ham_hopping.py"]}
{"id": "C113", "title": "Renumbering the sites renames the results", "statement": "Giving the sites other numbers, or exchanging the names of the spins, in all input arrays gives the same energies, and the same Green functions and occupations under the new names. For the Green functions of build_gf_lanczos the same holds up to the errors of the Lanczos runs.", "quantifier": "all inputs, permutations, temperatures and frequencies", "why_tests_cant": "The basis order, the signs and the sector order all change with the numbering.", "anchors": ["edpyt/gf_exact.py:build_gf_exact", "edpyt/gf2_exact.py:build_gf2_exact", "edpyt/observs.py:get_occupation", "edpyt/build_mb_ham.py:build_mb_ham"]}
{"id": "C114", "title": "The spin-dependent impurity object solves its own impurity problem", "statement": "After any sequence of calls (fit, update, per-spin fit and update, reset, spin_symmetrize), each spin whose last bath change was a fit or a copy of a fitted bath has a Hamiltonian with exactly its current bath, and its self-energy is the local self-energy of the two-spin impurity problem.", "quantifier": "all call histories, baths, interactions, temperatures and frequencies", "why_tests_cant": "The arrays are shared views; the property must survive every order of calls.", "anchors": ["edpyt/dmft.py:SpinGfimp", "edpyt/dmft.py:dmft_step", "edpyt/dmft.py:dmft_step_magnetic"]}
{"id": "C115", "title": "Reversing the magnetic field exchanges the spins", "statement": "After dmft_step_magnetic with the opposite sign the self-energies of the two spins are exchanged and the magnetisation changes sign; without field both spins have the same self-energy.", "quantifier": "all histories, baths, fields, interactions and temperatures", "why_tests_cant": "Holds for every input and history.", "anchors": ["edpyt/dmft.py:dmft_step_magnetic", "edpyt/dmft.py:SpinGfimp"]}
{"id": "C116", "title": "A converged DMFT run has equal lattice and impurity Green functions", "statement": "When the DMFT loop raises Converged, the inverses of the lattice and the impurity Green function differ at every fitted frequency by less than tol plus the error of the last bath fit there.", "quantifier": "all sequences of trial hybridisations chosen by the mixing routine, all minimisers, solvers, lattices, chemical potentials and tolerances", "why_tests_cant": "Convergence is judged only on the hybridisation; the relation to the Green functions must hold for every history of calls.", "anchors": ["edpyt/dmft.py:DMFT.__call__", "edpyt/dmft.py:DMFT.step", "edpyt/dmft.py:dmft_step", "edpyt/dmft.py:dmft_step_adjust"]}
{"id": "C117", "title": "A nano DMFT step ties every impurity to its own site", "statement": "After a DMFT step on a nano lattice each impurity has the level of its own site and the bath fitted to its own row, and the difference of the inverse Green functions of site and impurity is the change of mu minus the mismatch of the hybridisations; at a fixed point they are equal on every inequivalent site.", "quantifier": "all lattices, numbers of sites, minimisers, solvers, frequencies and chemical potentials", "why_tests_cant": "Index bookkeeping between sites, inequivalent sites and impurities for every lattice.", "anchors": ["edpyt/nano_dmft.py:Gfimp", "edpyt/nano_dmft.py:Gfloc", "edpyt/dmft.py:dmft_step"]}
{"id": "C118", "title": "Truncating and screening the spectrum costs no more than the weight thrown away", "statement": "The Lanczos Green function computed from part of the eigenstates (neig_sector, screen_espace) differs from the thermal Green function at most by the Lanczos errors plus 2(Z0-K)/(|eta| K), where K is the Boltzmann weight of the states kept and Z0 that of all; after build_espace and screen_espace(beta, cutoff) this is at most 2*4^n*cutoff/|eta|.", "quantifier": "all Hamiltonians, truncations, temperatures, cutoffs and frequencies off the real axis", "why_tests_cant": "The error depends on every eigenstate dropped and on the sectors that are diagonalised again during the run.", "anchors": ["edpyt/espace.py:screen_espace", "edpyt/espace.py:build_espace", "edpyt/gf_lanczos.py:build_gf_lanczos"]}
{"id": "C119", "title": "Solving an impurity gives its Green function at the temperature of the object", "statement": "After Gfimp.solve() (and SpinGfimp.solve() for each spin) gf is the thermal Green function at self.beta of the impurity Hamiltonian, up to the Lanczos errors.", "quantifier": "all impurity Hamiltonians, temperatures, spins and frequencies", "why_tests_cant": "The states are screened with a default temperature, not the object's; whether that is harmless depends on the whole spectrum.", "anchors": ["edpyt/dmft.py:Gfimp.solve", "edpyt/dmft.py:SpinGfimp.solve", "edpyt/espace.py:screen_espace"]}
{"id": "C120", "title": "Second Lanczos pass returns Ritz pairs", "statement": "Calling sl_solve with the coefficients returned by build_sl_tridiag for a real symmetric matrix and a positive multiple of the same starting vector gives, for the whole spectrum or an index range, ascending values and orthonormal vectors in the original space; every value is the expectation value of the matrix in its vector, and the matrix applied to the vector differs from value times vector by at most the Lanczos remainder, so that every value is within the norm of the remainder of an exact eigenvalue. Asking for the eigenvalues only (eigvals_only=True) is expected to return the eigenvalues.", "quantifier": "every real symmetric matrix, starting vector, positive rescaling, thresholds, convergence schedule and index range", "why_tests_cant": "the coefficients and the vectors come from two separate runs of the recurrence that must stay in step for every matrix and every stopping point", "anchors": ["edpyt/lanczos.py: sl_solve, _kron, sl_step, build_sl_tridiag", "edpyt/tridiag.py: eigh_tridiagonal"]}
{"id": "C121", "title": "The lattice occupations are those of the local Green functions", "statement": "integrate(mu) of a nano lattice without MPI and for one spin returns, for every site, twice the occupation at inverse temperature 70 and chemical potential mu of the spectrum of the local Green function of that site, up to an explicit error of the 3000 Matsubara frequencies; equivalent sites get equal numbers; without self-energy and hybridisation it is the Fermi-weighted sum over the levels of the lattice Hamiltonian.", "quantifier": "all lattices, partitions into at least two classes of equivalent sites, self-energies, hybridisations and chemical potentials", "why_tests_cant": "All lattices and frequencies; the error must hold for every spectrum.", "anchors": ["edpyt/nano_dmft.py:Gfloc.integrate, get_occps", "edpyt/integrate_gf.py:matsum_gf"]}
{"id": "C122", "title": "adjust_mu finds the chemical potential of the requested filling", "statement": "If the requested total lies between the total occupations of the lattice at -20 and 20, adjust_mu returns a chemical potential within 1e-11 of one at which the total occupation that integrate reports is exactly the requested total; otherwise it raises ValueError; without interaction the sum of the Fermi-weighted levels is the requested total up to an explicit error.", "quantifier": "all lattices, requested occupations, continuous self-energies", "why_tests_cant": "All lattices and requested fillings.", "anchors": ["edpyt/dmft.py:adjust_mu", "edpyt/nano_dmft.py:Gfloc.integrate"]}
{"id": "C123", "title": "The occupation that an impurity object reports is that of its impurity site", "statement": "integrate(mu) of the impurity object returns the number of electrons of both spins on the impurity site at the temperature of the object, up to the error of the quadrature.", "quantifier": "all impurities, Green functions, temperatures and chemical potentials", "why_tests_cant": "All temperatures and spectra.", "anchors": ["edpyt/dmft.py:Gfimp.integrate, SpinGfimp.integrate", "edpyt/integrate_gf.py:integrate_gf"]}
{"id": "C124", "title": "integrate_gf treats an array of chemical potentials element by element", "statement": "integrate_gf called with an array of chemical potentials returns in each element what it returns for that chemical potential alone.", "quantifier": "all Green functions, temperatures, numbers of points and arrays", "why_tests_cant": "All arrays and numbers of points.", "anchors": ["edpyt/integrate_gf.py:integrate_gf"]}
{"id": "C125", "title": "Occupations and local moments of a solved impurity", "statement": "After Gfimp.solve or SpinGfimp.solve, get_occupation on the stored eigen-states gives the thermal occupations at the object's temperature, and get_local_moments of a nano container gives the thermal magnetic moment of each impurity site.", "quantifier": "all impurity Hamiltonians, temperatures, Lanczos parameters and numbers of impurities", "why_tests_cant": "The stored eigen-states are a truncated and re-diagonalised set; the size of what was dropped depends on the whole spectrum.", "anchors": ["edpyt/observs.py:get_occupation", "edpyt/nano_dmft.py:Gfimp.get_local_moments", "edpyt/dmft.py:Gfimp.solve"]}
{"id": "C126", "title": "Band Lanczos returns the projected operator", "statement": "build_bd_tridiag applied to a symmetric operator and a list of start vectors ends without error and returns the matrix of the operator in an orthonormal family; if it runs to exhaustion the family spans the start vectors and an invariant subspace up to the deflation threshold.", "quantifier": "all symmetric operators, dimensions, lists of start vectors (dependent ones included), maxn, thresholds and convergence tests", "why_tests_cant": "Deflation patterns and index wrap-around depend on the operator and the vectors.", "anchors": ["edpyt/lanczos.py:build_bd_tridiag"]}
{"id": "C127", "title": "The ground state energy is variational", "statement": "The energy that build_espace returns is the lowest expectation value of the Hamiltonian over the whole Fock space, and is attained. As a consequence it never falls when the interaction (without half-filling mode) or an on-site energy is raised, it grows at most by the energy the change adds to the full configuration, and it is concave in the interaction array.", "quantifier": "all valid Hamiltonian arguments, all vectors of the Fock space, all pairs of interaction arrays and one-body matrices in the stated order", "why_tests_cant": "a test compares a few energies; the minimum ranges over every vector of an exponentially large space and every pair of parameters", "anchors": ["edpyt/espace.py:build_espace", "edpyt/build_mb_ham.py:build_mb_ham"]}
{"id": "C128", "title": "The filling is a strictly monotone function of the chemical potential", "statement": "The levels of a sector with p up and q down electrons move rigidly by mu (p + q) when mu is changed. The total number of electrons from get_occupation after build_espace does not depend on the run of the eigensolver, falls strictly as mu is raised (mu is added to the levels), and takes every value strictly between 0 and twice the number of sites at exactly one mu.", "quantifier": "all valid Hamiltonian arguments, all positive inverse temperatures, all pairs of chemical potentials, all fillings", "why_tests_cant": "monotonicity and uniqueness quantify over all chemical potentials, and the existence of the right one is a limit statement", "anchors": ["edpyt/espace.py:build_espace", "edpyt/build_mb_ham.py:build_mb_ham", "edpyt/ham_local.py:build_ham_local", "edpyt/observs.py:get_occupation"]}
{"id": "C129", "title": "High-frequency tail of the Green function and Hartree limit of the self-energy", "statement": "Far from the real axis the Green function of a site is 1/z + m/z^2 + o(1/z^2), where m is the Hartree level: the on-site energy of the site plus the interactions weighted by the occupations get_occupation returns. For an impurity with one correlated orbital the self-energy Sigma(z) tends to U times the occupation of the opposite spin.", "quantifier": "all valid Hamiltonian arguments without exchange and pair hopping, all inverse temperatures, all sites, both spins, all histories of bath fits and chemical potentials", "why_tests_cant": "a limit at infinite frequency, over all Hamiltonians and all runs of the eigensolver", "anchors": ["edpyt/gf_exact.py:build_gf_exact", "edpyt/gf2_exact.py:build_gf2_exact", "edpyt/observs.py:get_occupation", "edpyt/dmft.py:Gfimp.Sigma"]}
{"id": "C130", "title": "Spin multiplets of the spectrum", "statement": "For a spin-independent Hamiltonian without spin exchange, the energies found by diagonalization come in spin multiplets: every level of a sector is a level, with at least the same multiplicity, of every sector with the same number of electrons and a smaller or equal spin imbalance, so every N-electron energy is found in the sector with the least spin. With the spin exchange Jx the statement is false of this code.", "quantifier": "all numbers of sites, all spin-independent hopping matrices, interactions, density couplings and pair hoppings, all runs of the diagonalization, all sectors and energies", "why_tests_cant": "A test compares a few multiplets of one model; SU(2) invariance is a statement about all coefficients and all sectors.", "anchors": ["edpyt/espace.py:build_espace", "edpyt/build_mb_ham.py:build_mb_ham", "edpyt/ham_non_local.py:_build_ham_non_local", "edpyt/ham_local.py:build_ham_local"]}
{"id": "C131", "title": "Symmetries map energies sector by sector", "statement": "The energies of a sector found by diagonalization do not depend on the numbering of the sites: a renumbered input gives, sector by sector, the same ascending list, with the two spins exchanged if the input exchanges them. For a spin-independent input the sectors (p,q) and (q,p) list the same energies; for a particle-hole symmetric input so do the sectors (p,q) and (n-p,n-q).", "quantifier": "all numbers of sites, all inputs and permutations with the symmetry, all runs of the diagonalization (any choice of eigenvectors), all pairs of sectors", "why_tests_cant": "Tests compare one symmetric model; the claim is about all symmetric inputs and the order and multiplicity of every list.", "anchors": ["edpyt/espace.py:build_espace", "edpyt/build_mb_ham.py:build_mb_ham", "edpyt/ham_local.py:build_ham_local", "edpyt/ham_non_local.py:_build_ham_non_local"]}
{"id": "C132", "title": "Self-energies are causal", "statement": "Above the real axis the matrix of Green functions of the exact solver is invertible and the self-energy matrix z - h - G^-1 has no positive imaginary part (Im <v,Sigma v> <= 0 for all v), for every Hamiltonian the code builds; the self-energy of the impurity object, free(z)^-1 - gf(z)^-1, has an imaginary part <= 0.", "quantifier": "all numbers of sites up to 32, all one-body and interaction inputs, temperatures, points z above the real axis, vectors, histories of the impurity object", "why_tests_cant": "Causality is an inequality at every point of the half plane for every model; a test samples a few, and the violation by dropped couplings is of the order 1e-16.", "anchors": ["edpyt/gf2_exact.py:build_gf2_exact", "edpyt/gf_exact.py:build_gf_exact", "edpyt/dmft.py:Gfimp.Sigma", "edpyt/dmft.py:Gfimp.free"]}
{"id": "C133", "title": "The samples of siam_solve are self-energies", "statement": "A pass of siam_solve with n ascending poles never raises and leaves arrays the next pass can use; the sample it adds is the self-energy of the impurity site of the sampled Anderson model (it solves the Dyson equation with the exact interacting Green functions), shifted by the constant -sigma0. So the returned self-energy has no positive imaginary part above the real axis, and without interaction it is -sigma0; with U = 0 and the default sigma0 every pass is accepted and siam_solve returns.", "quantifier": "all numbers of poles 2..32, all ascending poles, all U, sigma0, temperatures, all numbers of samples and sequences of poles, all points z above the real axis, all choices of eigenvectors", "why_tests_cant": "The result is a random mean over an unbounded number of passes that share two arrays; a test sees a few of them, and the violation by dropped couplings is of the order 1e-16.", "anchors": ["edpyt/dedlib.py:siam_solve", "edpyt/dedlib.py:build_siam", "edpyt/dedlib.py:Gf0", "edpyt/dedlib.py:Gfimp"]}
{"id": "C134", "title": "ded_solve_multi returns the mean for each impurity", "statement": "When ded_solve_multi of the development module returns, the result of each impurity is the mean of exactly the samples this impurity accepted, whatever the other impurities accept, and zero if it accepted none; the number of passes in which some impurity accepts is N.", "quantifier": "all sequences of trials, numbers of impurities, numbers of samples", "why_tests_cant": "All random histories of acceptances; moam_solve, the released variant, gets it wrong only for uneven histories (C88).", "anchors": ["edpyt/dedlib_dev.py:ded_solve_multi"]}
{"id": "C135", "title": "The development solvers return with their default arguments", "statement": "ded_solve and ded_solve_multi of the development module return a result for their documented arguments: any number of samples, interaction as number, array or dictionary, sigma0 given or left out.", "quantifier": "all interactions, poles, numbers of samples and continuations", "why_tests_cant": "That no argument works cannot be seen from failing calls; the refutation covers all of them.", "anchors": ["edpyt/dedlib_dev.py:ded_solve", "edpyt/dedlib_dev.py:get_occupation", "edpyt/dedlib_dev.py:get_evecs_occupation", "edpyt/dedlib_dev.py:ded_solve_multi"]}
{"id": "C136", "title": "smooth is a low-pass filter that keeps a self-energy causal", "statement": "smooth(energies, sigma, cutoff) returns a function that on the mesh is the interpolated self-energy with the frequencies up to the cutoff kept and all others removed; smoothing is linear, keeps the mean, changes nothing when applied twice, is zero outside the window, and a self-energy without positive imaginary part stays so.", "quantifier": "all point lists in ascending order, all windows, meshes and cutoffs", "why_tests_cant": "A statement about all signals and cutoffs; tests plot a few.", "anchors": ["edpyt/dedlib.py:smooth", "edpyt/dedlib_dev.py:smooth"]}
{"id": "C137", "title": "Results do not depend on which eigenvectors the solver returns", "statement": "Two runs of build_espace on the same arguments with all eigenvalues requested may return different eigenvectors of degenerate levels, but they return the same sectors, energies and ground energy; build_gf_exact, build_gf2_exact and get_occupation (also after screen_espace with the same arguments) give the same values from both. This is not so when neig_sector cuts through a degenerate level: then get_occupation may return 1 or 0 for the same site.", "quantifier": "all valid Hamiltonians of 2 to 32 sites, all pairs of runs, temperatures, screening arguments, sites and spins", "why_tests_cant": "A statement about all pairs of outcomes of the eigensolver; a test sees the one that its LAPACK picks.", "anchors": ["edpyt/espace.py:build_espace", "edpyt/espace.py:screen_espace", "edpyt/gf_exact.py:build_gf_exact", "edpyt/gf2_exact.py:build_gf2_exact", "edpyt/observs.py:get_occupation"]}
{"id": "C138", "title": "A spin-dependent DMFT loop magnetises only if it is seeded", "statement": "A DMFT loop with a spin-dependent impurity that starts with equal spins stays paramagnetic: after any number of calls, all hybridisations have equal rows, both spins have the same Hamiltonian and bath, and both self-energies agree. initialize_magnetic seeds the loop: it returns with equal baths and levels that differ by 2 sign field, and the first ordinary step removes the field again.", "quantifier": "all reachable impurity objects, deterministic fits, chemical potentials, lattice functions, drivers that use linear combinations of earlier arguments and results, numbers of calls and frequencies; exact impurity Green functions, up to 31 bath sites", "why_tests_cant": "An invariant of all histories of calls; a test runs one loop for a few iterations.", "anchors": ["edpyt/dmft.py:DMFT.__call__", "edpyt/dmft.py:DMFT.step", "edpyt/dmft.py:DMFT.initialize_magnetic", "edpyt/dmft.py:dmft_step_magnetic", "edpyt/dmft.py:SpinGfimp"]}
{"id": "C139", "title": "A mixing run ends by the verdict of the DMFT object", "statement": "When distance(delta) returns, every element is a positive weight times the change of the hybridisation, the change has norm at least tol, and the vector is not zero: some element is at least tol / sqrt(N) times the smallest weight. So the stopping criterion f_tol = 1e-99 of solve_with_broyden_mixing never ends a run, only Converged or FailedToConverge do.", "quantifier": "all states of the DMFT object, hybridisations, temperatures, weights exponents and tolerances", "why_tests_cant": "A bound on every value that distance can return.", "anchors": ["edpyt/dmft.py:DMFT.distance", "edpyt/dmft.py:DMFT.__call__", "edpyt/dmft.py:DMFT.solve_with_broyden_mixing"]}
{"id": "C140", "title": "Sequential elements extracted from cotunnelling give the sequential rates", "statement": "extract_sequential_from_cotunneling(sigmadict), applied to the cotunnelling elements of a spectrum, gives the same rate matrix and the same transition matrix as the sequential elements that sqtnl.build_transition_elements computes for the same spectrum, with the amplitudes under the label of their spin.", "quantifier": "all complete spectra, numbers of sites and electrons, temperatures, chemical potentials and couplings", "why_tests_cant": "The count of the elements behind every entry of the matrices, for every spectrum.", "anchors": ["edpyt/sqtnl.py:extract_sequential_from_cotunneling", "edpyt/sqtnl.py:build_transition_elements", "edpyt/cotnl.py:build_transition_elements", "edpyt/sqtnl.py:build_rate_and_transition_matrices"]}
{"id": "C141", "title": "draw_spin_density draws the spin densities of the state", "statement": "draw_spin_density(atoms, evec, states, n) draws at each site a black and a gray circle whose radii are the expectation values of the numbers of up and of down electrons at that site in the state evec, so that the radii of either colour add up to the number of electrons of that spin.", "quantifier": "all sectors, all numbers of sites and all states", "why_tests_cant": "The expectation values in every state of every sector.", "anchors": ["edpyt/cotools.py:draw_spin_density", "edpyt/observs.py:get_evecs_occupation"]}
{"id": "C142", "title": "An antiferromagnetic seed on a symmetric nanostructure stays antiferromagnetic", "statement": "If a nanostructure has a symmetry that exchanges sites, and the DMFT loop with spin-dependent impurities is started by initialize_magnetic with fields of opposite sign on exchanged sites, then after every sequence of calls with linear combinations of earlier arguments and results, the hybridisations, self-energies and lattice Green functions of one spin on a site equal those of the other spin on its image, and so do the occupations of the impurity problems: the local moments alternate.", "quantifier": "all nanostructures with at least two inequivalent sites, symmetries, bath sizes, histories of the impurity objects that agree on exchanged sites, fields, seeds, fit routines, mixing sequences, frequencies off the real axis", "why_tests_cant": "The symmetry has to survive any number of iterations, any fit and any mixing; a test runs one structure with a few iterations and compares floats.", "anchors": ["edpyt/dmft.py:DMFT.initialize_magnetic", "edpyt/dmft.py:DMFT.__call__", "edpyt/dmft.py:dmft_step_magnetic", "edpyt/dmft.py:dmft_step", "edpyt/nano_dmft.py:Gfloc", "edpyt/nano_dmft.py:Gfimp"]}
{"id": "C143", "title": "The spin-dependent nano lattice Green function solves the Dyson equation of each spin", "statement": "With self-energies of both spins, the nano Gfloc returns for each inequivalent site, spin and frequency the diagonal element of the inverse of (z+mu)S - H - Hybrid(z) - Sigma(z) with the self-energy of that spin, independent of what the output array held before.", "quantifier": "all nanostructures, self-energies, frequencies and contents of the uninitialised output array", "why_tests_cant": "The result depends on how nditer walks over a three-dimensional array and on uninitialised memory; a test sees one shape and whatever the allocator left there.", "anchors": ["edpyt/nano_dmft.py:Gfloc.__call__", "edpyt/nano_dmft.py:Gfloc.get_sigma"]}
{"id": "C144", "title": "The cotunnelling elements are one list per connected pair of states, one element per connecting pair of spins", "statement": "For a complete set of eigenstates, build_transition_elements of cotunneling returns a dictionary with a key (final, initial) exactly for each pair of eigenstates whose sectors are at most one spin flip from a ground state sector and are connected by one electron in and one out. Its value is one element per pair of spins that connects the sectors, and each element holds the energy difference and gives the squared second-order amplitude of these states. With a cutoff exactly the pairs whose energies are within the cutoff of each other and of the ground state remain.", "quantifier": "all impurity sizes up to 32 orbitals, all Hamiltonians, all eigenbases, all ground state energies and cutoffs", "why_tests_cant": "The dictionary collects lists over nested loops over sectors and spins; a missing or doubled channel changes all rates and only shows for sectors a test does not visit.", "anchors": ["edpyt/cotunneling.py:build_transition_elements", "edpyt/cotunneling.py:project_sector", "edpyt/cotunneling.py:screen_transition_elements"]}
{"id": "C145", "title": "The fit of the hybridisation keeps the symmetry of the bath", "statement": "If the hybridisation to be fitted is purely imaginary on the Matsubara axis (particle-hole symmetric) and the bath it starts from is symmetric (energies in pairs +e, -e with equal couplings), the fitted bath is symmetric, whatever step lengths the line searches choose; the initial bath is symmetric. On the other side the fit can not leave a degenerate start: two bath sites with equal parameters stay equal, and a decoupled site stays decoupled with its energy unchanged.", "quantifier": "all numbers of bath sites, all fitted values, temperatures and start baths, all outcomes of the line searches, the compiled and the python fit", "why_tests_cant": "The result of the minimisation depends on the line searches and on the values in ways no test can enumerate; only an invariant of every gradient step shows it.", "anchors": ["edpyt/fit_cg.py:fit_hybrid", "edpyt/fit_cg.py:DDelta", "edpyt_backend/fit.c:fit"]}
{"id": "C146", "title": "A DMFT loop that starts at half filling stays half filled", "statement": "Take a lattice that is symmetric (its hybridisation or Hilbert transform is purely imaginary on the imaginary axis) with on-site energy 0, mu = U/2 (the default of initialize) and a symmetric bath. After any number of calls by a driver that mixes earlier hybridisations with real weights, whatever the line searches of either fit do, all hybridisations are purely imaginary on the Matsubara axis and the fitted bath is symmetric; after the next call, also one that raises Converged, the impurity holds half an electron of each spin and the real part of its self-energy on the axis is U/2.", "quantifier": "all numbers of bath sites up to 31, all U, temperatures, symmetric lattices and baths, all pasts of the impurity object, all numbers of calls and mixing weights, all outcomes of the line searches, exact arithmetic and exact solver", "why_tests_cant": "The statement is about every iterate of an unbounded loop around a minimiser and an eigensolver; a test sees one run and one set of line searches.", "anchors": ["edpyt/dmft.py:DMFT", "edpyt/dmft.py:dmft_step", "edpyt/dmft.py:Gfimp", "edpyt/fit_cg.py:fit_hybrid"]}
{"id": "C147", "title": "Cotunnelling rates obey detailed balance", "statement": "For every transition between two states and its reverse with the two leads exchanged, the rate back is the rate forth times exp(beta (E_F - E_I - mu_extract + mu_inject)), for the approximate rate and for the exact integration.", "quantifier": "all elements (through states with one electron more, less, or both), energies, matrix elements, couplings, leads, temperatures and chemical potentials; any implementation of the polygamma functions", "why_tests_cant": "An exact relation between two rates that are computed independently; it fails only for inelastic transitions through one kind of intermediate state, at energies a test has to guess.", "anchors": ["edpyt/cotunneling.py:_Sigma.approximate", "edpyt/cotunneling.py:_Sigmae.integrate", "edpyt/cotunneling.py:_Sigmah.integrate", "edpyt/integrals.py:Gamma1", "edpyt/integrals.py:Gamma2"]}
{"id": "C148", "title": "The exact cotunnelling integrals follow their formula down to zero bias", "statement": "The integral of one level is the closed formula with the trigamma and Bose functions for every bias, with its limit at zero bias; near zero bias, where the code uses an expansion of the Bose function, the deviation is below the precision of the numbers.", "quantifier": "all levels, prefactors, temperatures and chemical potentials; any implementation of the polygamma functions", "why_tests_cant": "The branches are chosen by windows of width 1e-15 that a test does not hit; the error bound of the expansion is for all values in it.", "anchors": ["edpyt/integrals.py:I1", "edpyt/integrals.py:I2", "edpyt/integrals.py:Taylor", "edpyt/integrals.py:Gamma2"]}
{"id": "C149", "title": "The cutoff of the number-conserving cotunnelling elements removes only what is far away or negligible", "statement": "cotnl.build_transition_elements(n, espace, N, egs, cutoff) returns the elements it would return without cutoff, except the transitions that exchange an energy of at least cutoff or that have a state at least cutoff above the ground state, and except intermediate states with negligible amplitude; removing the latter changes no amplitude by more than a negligible amount, for any couplings to the leads; a cutoff that removes everything gives an empty dictionary.", "quantifier": "Every number of sites, every espace, every dictionary of elements, every cutoff and every pair of coupling vectors.", "why_tests_cant": "Which elements survive depends on every energy and every matrix element at once; a test sees one molecule, one cutoff and usually uniform couplings.", "anchors": ["edpyt/cotnl.py:screen_transition_elements", "edpyt/cotnl.py:build_transition_elements"]}
{"id": "C150", "title": "The exact rate of interfering paths is that of the sum of their amplitudes", "statement": "The exact integrals for two and four paths (Gamma2, Gamma4) give the rate of the coherent superposition of the paths: the order of the paths does not matter, a path with amplitude zero has no effect, scaling all amplitudes by c scales the rate by c squared, and paths over intermediate states of equal energy act as one path with the sum of the amplitudes.", "quantifier": "all amplitudes, levels, temperatures, chemical potentials and orders of the paths; any implementation of the polygamma functions with the stated contract", "why_tests_cant": "The statements are identities over all real amplitudes and a limit of coinciding levels, at which the code divides by zero.", "anchors": ["edpyt/integrals.py:I2", "edpyt/integrals.py:Gamma2", "edpyt/integrals.py:Gamma4"]}
{"id": "C151", "title": "Raising a level lowers its occupation, and the occupations determine the levels", "statement": "After build_espace with all eigenvalues and get_occupation at a positive temperature: raising the on-site energy of a site strictly lowers the number of electrons on it, and raising it for one spin lowers the occupation of that spin, whatever the hoppings and interactions. In general the changes of the occupations are opposed to those of the levels (the sum of their products is negative), so that two sets of levels with the same occupations are equal. The free energy of the returned eigenvalues grows at most by the change of the levels times the old occupations and at least by that times the new ones; it does not fall when the interaction is raised.", "quantifier": "all numbers of sites, valid Hamiltonians, changes of the levels or of the interaction array, positive temperatures, all runs of the eigensolver", "why_tests_cant": "It compares two runs for every Hamiltonian of every size; it is an inequality between traces of exponentials of matrices that do not commute.", "anchors": ["edpyt/espace.py:build_espace", "edpyt/observs.py:get_occupation", "edpyt/ham_local.py:build_ham_local"]}
{"id": "C152", "title": "The results are continuous in the temperature, with the right limits", "statement": "The occupations from get_occupation and the Green functions from build_gf_exact and build_gf2_exact after build_espace are continuous functions of beta. As beta grows they tend to the average over all ground states, also when these are degenerate; with a gap of at least D above the ground level the occupations differ from the limit by at most 4^n exp(-beta D), and the Green functions by a constant times exp(-beta D). At beta = 0 every site is exactly half filled, for every Hamiltonian.", "quantifier": "all numbers of sites, valid Hamiltonians, degeneracies and gaps, temperatures, sites, spins, frequencies off the real axis, runs of the eigensolver", "why_tests_cant": "A limit in the temperature and a rate for every Hamiltonian of every size.", "anchors": ["edpyt/observs.py:get_occupation", "edpyt/gf_exact.py:build_gf_exact", "edpyt/gf2_exact.py:build_gf2_exact", "edpyt/espace.py:build_espace"]}
{"id": "C153", "title": "Energies and occupations are stable against small changes, also against the hopping cutoff", "statement": "If the on-site energies and the kept hopping elements of two Hamiltonians differ by d in total (sum of the absolute differences over both spins), the ground state energies and the free energies after build_espace differ by at most d, and every occupation from get_occupation by at most x(1+e^x)+e^x-1 with x = beta d (less than 7x for x <= 1), whatever the number of sites and the interactions. Dropping the hopping elements not larger than 1e-7 changes the results of the full Hamiltonian at most by the same bounds, with d the sum of the dropped elements, at most 2 n^2 1e-7.", "quantifier": "all numbers of sites, valid Hamiltonians and changes of the one-body matrices, positive temperatures, sites, spins, runs of the eigensolver", "why_tests_cant": "A bound on the difference of two runs for all inputs, independent of the dimension of the matrices.", "anchors": ["edpyt/espace.py:build_espace", "edpyt/observs.py:get_occupation", "edpyt/ham_hopping.py:build_ham_hopping"]}
{"id": "C154", "title": "Green functions are stable against small changes of the levels, the hopping and the interaction", "statement": "If the on-site energies, the kept hopping elements and the interaction array of two Hamiltonians differ by d in total, every Green function from build_gf_exact and build_gf2_exact after build_espace changes by at most 4 d / eta^2 + 2 b(beta d) / |eta| at distance eta from the real axis, with b(x) = x(1+e^x)+e^x-1, whatever the number of sites and the size of the interaction. The ground state energy, the free energy and the occupations obey the bounds of C153 also for changes of the interaction. Against the Hamiltonian without the cutoff of hopping elements the Green functions obey the same bound, with d the sum of the dropped elements.", "quantifier": "all numbers of sites, valid Hamiltonians, changes of the one-body matrices and of the interaction array, temperatures, pairs of sites, spins, energies, broadenings different from zero, runs of the eigensolver", "why_tests_cant": "A bound on the difference of two runs for all inputs, independent of the dimension of the matrices.", "anchors": ["edpyt/espace.py:build_espace", "edpyt/gf_exact.py:build_gf_exact", "edpyt/gf2_exact.py:build_gf2_exact", "edpyt/observs.py:get_occupation"]}
{"id": "C155", "title": "The dictionary of transition elements holds exactly the one-electron amplitudes between the active states", "statement": "After build_espace on the full spectrum, build_transition_elements of sequential tunnelling succeeds for every cutoff and every given ground state energy. The returned dictionary has an element for a pair of eigenstates exactly if they differ by one electron of one spin, both lie in a sector that contains a ground state or in a neighbour of such a sector, and, with a cutoff, the transition energy and the distances of both states from the given energy are below it. The element stores E(N+1) - E(N), whether an electron is added or removed, and for every site k the amplitude <N+1| c^dagger_{k,spin} |N> of the Fock space, up to one common sign.", "quantifier": "all numbers of sites up to the word size, valid Hamiltonians, runs of the eigensolver, given energies, cutoffs or none, pairs of eigenstates, spins, sites", "why_tests_cant": "The set of keys and every stored amplitude must be right for every Hamiltonian; a missing transition only changes rates and shows no error.", "anchors": ["edpyt/sqtunneling.py:build_transition_elements", "edpyt/sqtunneling.py:project", "edpyt/sqtunneling.py:screen_transition_elements", "edpyt/espace.py:build_espace"]}
{"id": "C156", "title": "The sequential current is bounded by the couplings, and exponentially small in the Coulomb blockade", "statement": "After build_espace on the full spectrum and build_transition_elements, the current of build_transition_matrix through a lead with couplings a is at most 2 sum_k a_k^2, for every distribution over the states, temperature and chemical potential, whatever the number of states. States from which every stored transition costs at least D at the lead contribute at most 2 sum_k a_k^2 exp(-beta D) times their probability. If all ground states have the same charge N and every stored transition from a state of charge N costs at least D at both leads, the current in every stationary distribution of build_rate_matrix is at most 2 (sum a0^2 + sum a1^2) exp(-beta D), at any voltage.", "quantifier": "all numbers of sites, valid Hamiltonians, runs of the eigensolver, given energies, cutoffs, temperatures, chemical potentials, couplings (also of the wrong length), distributions, stationary states", "why_tests_cant": "A bound for all Hamiltonians, bias voltages and stationary states, independent of the number of many-body states.", "anchors": ["edpyt/sqtunneling.py:build_transition_elements", "edpyt/sqtunneling.py:build_rate_matrix", "edpyt/sqtunneling.py:build_transition_matrix", "edpyt/sqtunneling.py:_Gf.nF"]}
{"id": "C157", "title": "Sequential rates and currents do not depend on which eigenvectors the solver returns", "statement": "Two calls of build_espace on the same arguments may return different eigenvectors (signs, and any orthonormal basis of a degenerate level). build_transition_elements, build_rate_matrix and build_transition_matrix give the same list of states, rates and currents for both, at all temperatures, chemical potentials and couplings.", "quantifier": "all numbers of sites, valid Hamiltonians, pairs of runs of the eigensolver, given energies, cutoffs, temperatures, chemical potentials, couplings and distributions", "why_tests_cant": "The choice is made inside LAPACK and does not vary between runs of a test on one machine; the claim is about all choices the contract of eigh allows.", "anchors": ["edpyt/espace.py:build_espace", "edpyt/sqtunneling.py:build_transition_elements", "edpyt/sqtunneling.py:build_rate_matrix", "edpyt/sqtunneling.py:build_transition_matrix"]}
{"id": "C158", "title": "Without interaction the energies are sums of one-body levels, and build_non_interacting_espace agrees with build_espace", "statement": "With zero interaction, build_espace returns for every sector (nup,ndw), in ascending order and with multiplicity, all sums of nup one-body levels of spin up and ndw of spin down, where the levels are the eigenvalues of the one-body matrix. The ground state energy is the sum of the negative levels. build_non_interacting_espace(ek) returns the same sectors, energies and ground state energy as build_espace for the diagonal matrix ek without interaction. The entropy from get_entropy is then that of independent Fermi levels, less that of the bath.", "quantifier": "all numbers of sites the code accepts, all symmetric one-body matrices of either spin, all eigenbases, all sectors, all bath levels, all temperatures", "why_tests_cant": "The one-body matrices, the sectors and the eigenvectors are a continuum; no finite set of Hamiltonians settles a spectrum.", "anchors": ["edpyt/espace.py:build_espace", "edpyt/espace.py:build_non_interacting_espace", "edpyt/dedlib.py:get_entropy", "edpyt/build_mb_ham.py:build_mb_hamiltonian"]}
{"id": "C159", "title": "The entropy as a function of the temperature", "statement": "For any list of energies neither the mean energy nor the entropy computed from it rises when the temperature falls, and the entropy is minus the derivative with respect to the temperature of the free energy egs - kB T ln Z. On the full spectrum of build_espace the impurity entropy of get_entropy tends at high temperature to kB ln 4 for each site that is not in the bath, and at low temperature to kB ln (degeneracy of the ground state) less kB ln 4 for each bath level at zero energy. The impurity entropy is never negative.", "quantifier": "All energies, temperatures, reference energies egs, Hamiltonians and bath levels (at most eight) for which get_entropy runs.", "why_tests_cant": "Monotonicity and the two limits concern all temperatures and all spectra; a test compares numbers at a few temperatures.", "anchors": ["edpyt/dedlib.py:get_entropy", "edpyt/espace.py:build_espace", "edpyt/espace.py:build_non_interacting_espace"]}
{"id": "C160", "title": "The occupations are the derivatives of the free energy", "statement": "The free energy -ln(sum exp(-beta E))/beta of the energies that build_espace returns is a concave function of the levels, of mu and of each on-site interaction. Its derivative with respect to the level of one site and spin is the occupation that get_occupation reports for it, that with respect to mu is the total number of electrons, and that with respect to the on-site interaction is the thermal average of the double occupancy.", "quantifier": "All valid Hamiltonians, inverse temperatures and directions in which the levels are shifted, at every point.", "why_tests_cant": "It relates the energies to another output along a continuum of runs; a test can only compare difference quotients.", "anchors": ["edpyt/espace.py:build_espace", "edpyt/observs.py:get_occupation", "edpyt/build_mb_ham.py:build_mb_ham"]}
{"id": "C161", "title": "All ranks of the DED script leave the self-consistency loop together", "statement": "Run on any number of MPI ranks, the script ded.py ends: every rank leaves the loop over sigma0 after the same iteration, with the same sigma0, either because the residual is within the tolerance or because max_it iterations are done.", "quantifier": "All numbers of ranks, tolerances, iteration limits and sequences of residuals.", "why_tests_cant": "It is a statement about the joint behaviour of all ranks for every sequence of residuals; a test runs one number of ranks and one sequence.", "anchors": ["edpyt/ded.py"]}
{"id": "C162", "title": "pdisplay draws every energy at its number of electrons", "statement": "pdisplay draws one horizontal line for each eigenvalue of each sector of an espace and no other, at the height of the eigenvalue and centred at the number of electrons of its sector.", "quantifier": "All espaces, of spin sectors or of sectors of a total number of particles.", "why_tests_cant": "The grouping in a dictionary has to keep every eigenvalue for every set of sectors in any order.", "anchors": ["edpyt/eshow.py:pdisplay"]}
{"id": "C163", "title": "The density of states of the DED script is a normalised Lorentzian", "statement": "The function that lorentzian_function(gamma, z0) returns is positive, integrates to one over the real line, is symmetric about z0 with its only maximum there, has full width gamma at half maximum, and is the spectral function of a level at z0 with broadening gamma/2.", "quantifier": "All gamma > 0, z0 and energies.", "why_tests_cant": "Normalisation is an integral over all energies, the rest holds at every energy.", "anchors": ["edpyt/ded.py:lorentzian_function"]}
{"id": "C164", "title": "A truncated Lanczos recurrence keeps the high-frequency expansion", "statement": "Wherever build_sl_tridiag stops, after m steps, the coefficients it returns reproduce the first 2m moments <phi|A^k|phi>, k < 2m, of the start vector. Hence the Green function kernels built from them, continued fraction or spectral, agree with the exact resolvent of the start vector up to the order 2m of the expansion in 1/z: the error is at most a constant times |z|^(-2m) |Im z|^(-1).", "quantifier": "All real symmetric matrices A, start vectors phi, tolerances, estimates of convergence, step counts m, energies, signs, prefactors and frequencies off the real axis.", "why_tests_cant": "The claim is about every point at which the recurrence may stop and about an asymptotic order in the frequency.", "anchors": ["edpyt/lanczos.py:build_sl_tridiag", "edpyt/gf_lanczos.py:build_gf_coeff_cf", "edpyt/gf_lanczos.py:build_gf_coeff_sp", "edpyt/gf_lanczos.py:continued_fraction", "edpyt/gf_lanczos.py:spectral"]}
{"id": "C165", "title": "The ground state estimates of Lanczos are upper bounds that improve monotonically", "statement": "After every number of steps of build_sl_tridiag, the lowest eigenvalue of the tridiagonal matrix built so far, which the convergence test compares, is at least the lowest energy of the operator and does not rise when steps are added. If the recurrence ended because the next vector vanishes, it is the lowest energy among the eigenvectors that overlap with the start vector, and only that: with a start vector orthogonal to the ground state every run returns an excited energy.", "quantifier": "All real symmetric matrices, start vectors, thresholds, step counts and contents of the workspace.", "why_tests_cant": "Bounds for every matrix and every stopping point.", "anchors": ["edpyt/lanczos.py:build_sl_tridiag", "edpyt/tridiag.py:egs_tridiag"]}
{"id": "C166", "title": "Currents between the states of sqtnl obey the continuity equation and the second law", "statement": "For the matrices that sqtnl.build_rate_and_transition_matrices returns on a complete spectrum, the sums of the entries of T p for the two choices of the lead add up to the rate at which the mean number of electrons of the distribution p falls. In a stationary state the two currents are opposite. If every state is occupied in it and all energies lie within a hundred temperatures of both chemical potentials, electrons leave the lead with the higher chemical potential, and without a bias no current flows.", "quantifier": "All complete spectra labelled by the number of electrons, centres N, temperatures, chemical potentials, couplings and distributions.", "why_tests_cant": "A law over all spectra, couplings and stationary distributions.", "anchors": ["edpyt/sqtnl.py:build_rate_and_transition_matrices", "edpyt/sqtnl.py:build_transition_elements", "edpyt/sqtnl.py:Gfe", "edpyt/sqtnl.py:Gfh"]}
{"id": "C167", "title": "Sequential rates between levels do not depend on the eigenvectors", "statement": "Two runs of build_espace on the same arguments may return different eigenvectors for degenerate levels, and the sequential rates between single states then differ. The states listed by build_rate_matrix are nevertheless the same, with the same sector and energy in every row, and all sums of rates or of transition matrix entries between states of given levels (sector and energy) agree, as do the currents for populations that depend on the level only.", "quantifier": "All Hamiltonian parameters, all pairs of runs of build_espace without neig, all cutoffs, temperatures, chemical potentials, couplings of the right length and weights.", "why_tests_cant": "It ranges over all choices a diagonalisation may make in degenerate levels.", "anchors": ["edpyt/sqtunneling.py:build_rate_matrix", "edpyt/sqtunneling.py:build_transition_matrix", "edpyt/sqtunneling.py:build_transition_elements", "edpyt/espace.py:build_espace"]}
{"id": "C168", "title": "build_espace with symmetry='N' returns a complete eigenbasis", "statement": "build_espace(H, V, symmetry='N') with a dict V that holds U and at least one of Jx, Jp never raises, returns the sectors of 0..2n electrons in order, each with its lowest neig eigenpairs; without neig_sector the vectors are an orthonormal eigenbasis of one Hamiltonian on the whole Fock space, each sector supported on states of its electron number, and egs is the least eigenvalue. The spectrum should be that of symmetry='sz'.", "quantifier": "all n <= 16, all H, all symmetric Jx, Jp, all U, z, mu, hfmode, every neig_sector not above the dimensions, every solver result meeting the eigh/ARPACK contract, every parallel schedule", "why_tests_cant": "it ranges over all Hamiltonians, sizes and solver outcomes; a test compares a few spectra", "anchors": ["edpyt/espace.py:build_espace", "edpyt/espace.py:_N_iter_sectors", "edpyt/espace.py:solve_sector", "edpyt/build_mb_ham.py:build_mb_ham", "edpyt/ham_local.py:_N_build_ham_local", "edpyt/ham_non_local.py:_N_build_ham_non_local"]}
{"id": "C169", "title": "Tunnelling between levels of the particle-number spectrum does not depend on the returned eigenvectors", "statement": "Two calls of build_espace(H, V, symmetry='N') on the same arguments may return different eigenvectors for degenerate levels. The matrices that sqtnl.build_rate_and_transition_matrices derives from them then have the same rows (same number of electrons and energy, row by row), and every sum of entries of the rate matrix or of the transition matrix weighted by a function of the levels of both states is the same; so is the current of populations that depend on the level only. Rates between single states of a degenerate level do differ.", "quantifier": "All interactions, on-site levels and system sizes up to 16 sites; all pairs of outcomes of the eigensolver; all electron numbers, temperatures, chemical potentials, couplings, leads and weight functions.", "why_tests_cant": "A test sees the one eigenbasis that LAPACK happens to return on the machine at hand; the statement is about every basis it could return.", "anchors": ["edpyt/sqtnl.py: build_transition_elements, build_rate_and_transition_matrices, Gfe, Gfh", "edpyt/cotnl.py: project, dict_to_matrix", "edpyt/espace.py: build_espace, _N_iter_sectors"]}
{"id": "C170", "title": "Calling a cotunnelling element of the particle-number spectrum gives the squared second-order amplitude", "statement": "After build_espace(H, V, symmetry='N') and cotnl.build_transition_elements(n, espace, N) there is exactly one key for every ordered pair of states with N electrons, and under it one element for each of the four combinations of outgoing and incoming spin. The element's dE is the energy difference of the two states, and calling it with energy z and the couplings of two leads gives the square of the amplitude for an electron to leave the lead `extract` and an electron of energy z to arrive in the lead `inject`: the sum, over both orders of the two steps, of the matrix element of the lead operators with the resolvent of the full Hamiltonian in between.", "quantifier": "All interactions, on-site levels and system sizes up to 16 sites; all outcomes of the eigensolver; all electron numbers with a neighbour on both sides; all energies off the poles, couplings and pairs of leads.", "why_tests_cant": "The amplitude is defined with the inverse of the full many-body Hamiltonian; a test would have to compute it for each input, and the statement is for all of them and every eigenbasis.", "anchors": ["edpyt/cotnl.py: build_transition_elements, excite_electron, excite_hole, excite_states, project, Gf2, Gf2e, Gf2h, Sigma", "edpyt/espace.py: build_espace, _N_iter_sectors"]}
{"id": "C171", "title": "Cotunnelling rates of cotnl obey detailed balance", "statement": "cotnl.build_transition_elements contains with every transition its reverse, element by element: the reverse element has the spins exchanged and opposite dE, and calling it with the leads exchanged at the energy of the other electron gives the same value. The rate of a transition and the rate of its reverse with the leads exchanged are in the ratio exp(beta*(dE - mu[extract] + mu[inject])), so that without bias the Boltzmann distribution is stationary.", "quantifier": "All interactions, on-site levels and sizes up to 16 sites; all outcomes of the eigensolver; all electron numbers with elements; all pairs of states; all temperatures, chemical potentials and couplings.", "why_tests_cant": "Detailed balance is an identity between two rates for all temperatures, biases and spectra; a test compares them for one.", "anchors": ["edpyt/cotnl.py: build_transition_elements, Sigma.approximate, Sigma.exact, Gf2e, Gf2h, G, build_rate_and_transition_matrices", "edpyt/integrals.py: Gamma1, Gamma2, Gamma4"]}
{"id": "C172", "title": "The integrated cotunnelling rate is the golden-rule integral", "statement": "cotnl's Sigma.integrate returns, up to the discretisation error of 200 points, the golden-rule integral of the squared second-order amplitude times the probability that the state is occupied in the one lead and empty in the other; against a bias large compared with the temperature the rate vanishes.", "quantifier": "All elements with shaped blocks, all couplings of the leads, all temperatures and chemical potentials; the error bound for all windows without a pole.", "why_tests_cant": "An error bound of a quadrature and the limit of low temperature concern all parameters; a test evaluates the rate for a few.", "anchors": ["edpyt/cotnl.py: Sigma.integrate, Sigma.__call__, nF"]}
{"id": "C173", "title": "The factor G of the approximate cotunnelling rates is the phase space of the leads", "statement": "G(beta, x) equals the integral over all energies of the product of the probability that a state is occupied in a lead at chemical potential mu_e and that it is empty in a lead at mu_i, with x = mu_i - mu_e: with an amplitude that does not depend on energy the approximate rate is the exact golden-rule rate.", "quantifier": "All inverse temperatures beta > 0 and all pairs of chemical potentials.", "why_tests_cant": "An identity between a closed formula and an improper integral for all parameters.", "anchors": ["edpyt/cotnl.py: G, Sigma.approximate", "edpyt/cotunneling.py: G, approximate"]}
{"id": "C174", "title": "Cotunnelling between levels does not depend on the returned eigenvectors", "statement": "Two calls of build_espace(H, V, symmetry='N') on the same arguments may return different eigenvectors for degenerate levels. The matrices that cotnl.build_rate_and_transition_matrices derives from them, with the approximate or with the integrated rates, then have the same rows (same electron number and energy, row by row), and every sum of entries of the rate matrix or of the transition matrix weighted by a function of the levels of both states is the same.", "quantifier": "All interactions, on-site levels and system sizes up to 16 sites; all pairs of outcomes of the eigensolver; all electron numbers, temperatures, chemical potentials, couplings, leads and weight functions.", "why_tests_cant": "A test sees the one eigenbasis that LAPACK happens to return; the statement is about every basis it could return, and cotunnelling amplitudes interfere, so independence is not a matter of single matrix elements.", "anchors": ["edpyt/cotnl.py: build_transition_elements, build_rate_and_transition_matrices, Gf2, Sigma, approximate, integrate, dict_to_matrix", "edpyt/espace.py: build_espace, _N_iter_sectors"]}
{"id": "C175", "title": "High-frequency tail of the Green function to third order, and of the self-energy", "statement": "For a Hamiltonian whose interaction acts on single sites only, the Green function of a site computed by build_gf_exact or build_gf2_exact (either spin) falls off as 1/z + e/z^2 + (e^2 + sum of the squared hoppings to the other sites + U^2 n(1-n))/z^3, where e is the Hartree level and n the occupation of the site with the other spin that get_occupation returns. For the impurity object of the DMFT loop, after any history of updates, z (Sigma(z) - U n) tends to U^2 n (1-n) far from the real axis.", "quantifier": "All on-site interactions, one-body matrices of either spin, hf flags and system sizes up to 32 sites; all temperatures; all spectra build_espace can return; for the self-energy all histories, bath levels and couplings that are zero or larger than 1e-7.", "why_tests_cant": "The statement is a limit for every Hamiltonian and relates two functions of the library (Green function and occupations); a test sees one Hamiltonian at finite frequency.", "anchors": ["edpyt/gf_exact.py: build_gf_exact", "edpyt/gf2_exact.py: build_gf2_exact", "edpyt/observs.py: get_occupation", "edpyt/dmft.py: Gfimp.update, Gfimp.Sigma"]}
{"id": "C176", "title": "Normalised spectral functions and the weight of the self-energy", "statement": "For every broadening eta > 0 the spectral function -Im G(e, eta)/pi of build_gf_exact is integrable over the energies and has integral 1, and a window containing all poles with margin d contains at least (2/pi) arctan(d/eta) of it. The elements of the matrix of build_gf2_exact have integral 1 on the diagonal and 0 off it. The self-energy of the impurity object of the DMFT loop has, for every eta > 0, the integrated spectral weight U^2 n(1-n), with n the impurity occupation that get_occupation returns for the other spin.", "quantifier": "All Hamiltonians with density, exchange and pair interactions, all broadenings, temperatures, sites, spins, energy windows and outcomes of the eigensolver; for the self-energy all update histories, bath levels and couplings that are zero or larger than 1e-7.", "why_tests_cant": "The claim is about an integral over all energies for every Hamiltonian and every eta; a test sums a finite grid for one system.", "anchors": ["edpyt/gf_exact.py: build_gf_exact, Gf", "edpyt/gf2_exact.py: build_gf2_exact", "edpyt/observs.py: get_occupation", "edpyt/dmft.py: Gfimp.Sigma"]}
{"id": "C177", "title": "Lanczos Green functions are causal and normalised however early the recurrences stop", "statement": "For an untruncated espace, whatever the tolerances and the maximal number of steps, the Green function that build_gf_lanczos returns (continued fraction or spectral representation) has no positive imaginary part for eta > 0 (a negative one if 2 delta^2 < 1), and its spectral function -Im G/pi is integrable over the energies with one and the same integral for every eta, equal to 1 up to 2 delta^2, delta being the norm below which a start vector counts as zero. With separate=True the electron and the hole part are causal and have the integrals 1-n and n up to delta^2, n the thermal occupation of the site.", "quantifier": "All admissible Hamiltonians up to 32 sites, sites, spins, temperatures, representations, step limits, convergence estimates, broadenings and energies; all outcomes of the eigensolvers.", "why_tests_cant": "C98 bounds the error of a run by its residual, which says nothing when a recurrence is cut off early; sign and normalisation must hold at every truncation point, for all energies and broadenings.", "anchors": ["edpyt/gf_lanczos.py: build_gf_lanczos, build_gf_coeff_cf, build_gf_coeff_sp, Gf", "edpyt/lanczos.py: build_sl_tridiag", "edpyt/continued_fraction.pyx: continued_fraction"]}
{"id": "C178", "title": "Parts of the input that are not connected do not influence each other", "statement": "Colour the modes (site, spin) with two colours such that no hopping above the 1e-7 cutoff and no interaction or exchange element connects different colours. Then the Green functions of build_gf_exact, build_gf2_exact (and of build_gf_lanczos up to the residuals of its runs and delta) between modes of one colour, and their get_occupation values, are the same for every two inputs that agree on this colour, whatever the other colour contains; and the elements of build_gf2_exact between colours vanish. Disconnected clusters, decoupled bath levels and the two spins of a system without interaction are instances.", "quantifier": "all valid inputs and colourings, all temperatures, frequencies off the axis, memory contents, both spins, all eigenbases", "why_tests_cant": "unit tests compare a few fixed clusters; independence from the unconnected part ranges over all its parameters", "anchors": ["edpyt/build_mb_ham.py:build_mb_ham", "edpyt/espace.py:build_espace", "edpyt/gf_exact.py:build_gf_exact", "edpyt/gf2_exact.py:build_gf2_exact", "edpyt/gf_lanczos.py:build_gf_lanczos", "edpyt/observs.py:get_occupation"]}
{"id": "C179", "title": "Of the bath, only the hybridisation function matters", "statement": "If the interaction lives on one site, then the Green function of build_gf_exact and build_gf2_exact at that site (of build_gf_lanczos up to the residuals of its runs and delta) and its get_occupation values depend on all the other sites, their levels, couplings and mutual couplings, only through the non-interacting Green function of that site: two valid inputs with the same interaction and the same non-interacting Green function give the same results, also if their numbers of sites differ. For the impurity of the DMFT loop: two histories of fits and updates that end with the same level and the same hybridisation sum_k v_k^2/(z-e_k) give the same Green function and self-energy, whatever the number, order, signs or splitting of the bath levels.", "quantifier": "all valid inputs with an interaction on one site, all pairs with equal non-interacting Green function, all temperatures, frequencies off the axis, memory contents, both spins, all eigenbases, all histories of the impurity object", "why_tests_cant": "the equivalence holds between infinitely many pairs of baths and for every interaction; a test can compare a few fitted baths", "anchors": ["edpyt/dmft.py:Gfimp", "edpyt/build_mb_ham.py:build_mb_ham", "edpyt/espace.py:build_espace", "edpyt/gf_exact.py:build_gf_exact", "edpyt/gf2_exact.py:build_gf2_exact", "edpyt/gf_lanczos.py:build_gf_lanczos", "edpyt/observs.py:get_occupation"]}
{"id": "C180", "title": "The signs of the site orbitals are a convention", "statement": "Multiply the orbital of site i (and spin s) by a sign: H_ij becomes eps_i eps_j H_ij and the interaction arrays stay (with exchange terms the signs of both spins are the same). Then the energies, get_occupation and the local Green functions of build_gf_exact (and of build_gf_lanczos up to the residuals of its runs and delta) do not change, and element (i, j) of build_gf2_exact is multiplied by eps_i eps_j. In particular the sign of the hopping on a bipartite lattice does not matter.", "quantifier": "all valid inputs including exchange and pair hopping, all choices of signs, all temperatures, frequencies off the axis, memory contents, eigenbases", "why_tests_cant": "ranges over all inputs and all sign patterns; the fermionic signs of the matrix elements change individually", "anchors": ["edpyt/build_mb_ham.py:build_mb_ham", "edpyt/espace.py:build_espace", "edpyt/gf_exact.py:build_gf_exact", "edpyt/gf2_exact.py:build_gf2_exact", "edpyt/gf_lanczos.py:build_gf_lanczos", "edpyt/observs.py:get_occupation"]}
{"id": "C181", "title": "Sites that are not connected to the others can be left out of the input", "statement": "If no hopping above the cutoff of the code, no interaction and no exchange element connects the first k sites with the others, then the input that describes these k sites alone gives, on these sites, the same build_gf_exact, the same elements of build_gf2_exact for both spins, the same get_occupation, and the same build_gf_lanczos up to the residuals of its runs and delta.", "quantifier": "all valid inputs including exchange and pair hopping, all numbers of remaining and removed sites, any parameters of the removed sites, all temperatures, frequencies off the axis, memory contents, eigenbases", "why_tests_cant": "compares two runs on systems of different size, for every size and every content of the removed part; the many-body bases, sector tables and signs of the two runs have nothing in common", "anchors": ["edpyt/build_mb_ham.py:build_mb_ham", "edpyt/espace.py:build_espace", "edpyt/gf_exact.py:build_gf_exact", "edpyt/gf2_exact.py:build_gf2_exact", "edpyt/gf_lanczos.py:build_gf_lanczos", "edpyt/observs.py:get_occupation"]}
{"id": "C182", "title": "A cluster of interacting sites depends on the rest of the system only through its non-interacting Green function", "statement": "Take two inputs of the solvers, possibly with different numbers of sites, whose interactions (on-site, inter-site, exchange and pair hopping) are confined to the same set of sites and are equal there, and whose non-interacting Green functions agree between those sites. Then all Green function elements between sites of the set (build_gf2_exact, both spins; build_gf_exact on each of them) are equal at every temperature and every energy off the real axis, build_gf_lanczos gives them up to the errors of its runs, and get_occupation gives the same occupations of these sites. How many other sites there are, their levels, their couplings and the connections between them do not matter otherwise.", "quantifier": "all pairs of valid inputs with the same interactions on a set of sites and the same one-body resolvent between these sites, all inverse temperatures, spins, energies, broadenings, and pairs of sites of the set", "why_tests_cant": "An identity between the outputs for two different Hamiltonians of different sizes, for every cluster and every bath with the same hybridisation matrix; a test compares a few baths at a few energies.", "anchors": ["edpyt/build_mb_ham.py:build_mb_ham", "edpyt/espace.py:build_espace", "edpyt/gf_exact.py:build_gf_exact", "edpyt/gf2_exact.py:build_gf2_exact", "edpyt/gf_lanczos.py:build_gf_lanczos", "edpyt/observs.py:get_occupation"]}
{"id": "C183", "title": "The self-energy of an interacting cluster lives on the cluster", "statement": "If the interactions of an input (on-site, inter-site, exchange and pair hopping) are confined to a set of sites, the self-energy matrix z - h - G^-1 from the matrix of Green functions that build_gf2_exact returns is zero unless both sites belong to the set, at every temperature, for both spins and at every energy above the real axis. On the set it is the difference of the inverses of the blocks of the non-interacting and of the interacting Green function, so it can be computed from Green functions on the set alone; two inputs, of any sizes, with the same interactions on the set and the same non-interacting Green function on it have the same self-energy.", "quantifier": "all valid inputs whose interactions are confined to a set of sites, all inverse temperatures, energies, positive broadenings, spins, and pairs of sites", "why_tests_cant": "A statement about the inverse of a matrix of many-body Green functions for every interaction on every cluster; a test inverts a few matrices numerically.", "anchors": ["edpyt/build_mb_ham.py:build_mb_ham", "edpyt/espace.py:build_espace", "edpyt/gf2_exact.py:build_gf2_exact"]}
{"id": "C184", "title": "The electron and hole parts of a Green function obey detailed balance", "statement": "The electron part and the hole part that build_gf_lanczos(separate=True) returns are the same spectral function, once with every residue times one minus the Fermi function of its pole and once with every residue times the Fermi function, up to the accuracy of the recurrences. In particular they are the Green function of build_gf_exact with its residues multiplied in this way. The residues of build_gf_exact times the Fermi function add up to the occupation from get_occupation, and times one minus the Fermi function to the number of holes.", "quantifier": "all valid models, temperatures, sites, complete espaces with any choice of eigenvectors, Lanczos settings, energies and non-zero broadenings; all pole expansions of the Green function", "why_tests_cant": "the two parts come from different sectors and different recurrences; the relation between them is a statement about all pairs of eigenstates at once", "anchors": ["edpyt/gf_lanczos.py:build_gf_lanczos", "edpyt/gf_exact.py:build_gf_exact", "edpyt/gf_exact.py:Gf", "edpyt/observs.py:get_occupation"]}
{"id": "C185", "title": "The Lanczos Green functions converge geometrically, at a rate known in advance", "statement": "Let the energies of the Hamiltonian lie within an interval of length W. At any complex frequency e + i eta, whatever e, the function built from one Lanczos recurrence of m steps differs from the exact one of its start vector by at most 2 |phi|^2 rho^m/|eta| with rho = W^2/(W^2 + 2 eta^2) < 1, for both representations. Hence build_gf_lanczos, with blocks of ND steps, at most maxn steps and threshold delta, differs from the thermal Green function by at most 2 rho^m/|eta| + delta/eta^2 + 2 delta^2/|eta| with m = min(2 ND, maxn - 1), and build_gf2_lanczos by twice that for every pair of sites, although the recurrences are stopped by a test on the ground state energy and not on the Green function.", "quantifier": "all admissible Hamiltonians, sites, spins, temperatures, complete sets of eigenpairs, broadenings, frequencies, representations, block lengths ND >= 2, sizes maxn >= 2, thresholds delta > 0, and all outcomes of the energy test after the first", "why_tests_cant": "a bound for all frequencies and all Hamiltonians at once; a test compares a few points of a few spectra with the exact result", "anchors": ["edpyt/gf_lanczos.py:build_gf_lanczos", "edpyt/gf2_lanczos.py:build_gf2_lanczos", "edpyt/lanczos.py:build_sl_tridiag", "edpyt/lanczos.py:sl_step"]}
{"id": "C186", "title": "A pass of moam_solve returns and its samples are those of the impurities", "statement": "Every pass of the sampling loop of moam_solve returns, for every number of impurities with the same number of bath sites, every array or dictionary interaction with symmetric exchange matrices, every draw of poles and on the array that the passes before it left. The array then holds for each impurity its fitted bath and its level minus sigma0, and zeros elsewhere. An impurity contributes exactly if the mean numbers of electrons on it and its bath sites in a ground state without and in one with interaction agree within the tolerances of np.allclose. The recorded occupations are those of the impurity in these states. The recorded self-energy is the inverse of the sampled Green function minus the inverse of a function that differs from the thermal Green function of the impurity at e + i eta by at most the residual of the Lanczos runs over eta squared, plus the cutoffs of the Lanczos runs and of the screening over eta. Without interaction between impurities this Green function does not depend, up to these errors, on the poles, interactions and levels of the other impurities.", "quantifier": "all numbers of impurities and bath sites (at most 32 sites), interactions, poles, sigma0, temperatures, root finders, contents of uninitialised memory, histories of passes, runs of the eigensolver and Lanczos parameters", "why_tests_cant": "a test draws a few poles and cannot see the Green function behind a sample; the shared espace and the array H, both changed in place, depend on all earlier impurities and passes", "anchors": ["edpyt/dedlib.py:moam_solve", "edpyt/dedlib.py:build_moam", "edpyt/dedlib.py:get_occupation"]}
{"id": "C187", "title": "Rows and columns of the transport matrices are the states in increasing order", "statement": "The matrices of sqtunneling and cotunneling have one row and one column for every final state of the dictionary, ordered by the numbers of up and down electrons and the level; those of sqtnl and cotnl one for every state that takes part in a transition, ordered by the number of electrons and the level. Off the diagonal the element in the row of F and the column of I of the rate matrix is the sum over the leads (for cotunnelling over the four pairs of leads) of the rates of the elements stored under (F, I), and zero if nothing is stored. The element of the transition matrix is the rate at the injecting lead with the sign of the charge (for cotunnelling the rate minus the rate with exchanged leads).", "quantifier": "all dictionaries of transitions in any order of insertion, temperatures, chemical potentials, couplings and methods of integration", "why_tests_cant": "a user reads the rows of the matrices by rank; every dictionary has its own ranks, also those whose initial and final states differ", "anchors": ["edpyt/sqtunneling.py:build_rate_matrix", "edpyt/sqtunneling.py:build_transition_matrix", "edpyt/cotunneling.py:build_rate_matrix", "edpyt/cotunneling.py:build_transition_matrix", "edpyt/cotnl.py:dict_to_matrix", "edpyt/cotnl.py:build_rate_and_transition_matrices", "edpyt/sqtnl.py:build_rate_and_transition_matrices"]}
{"id": "C188", "title": "Compression of a matrix with its diagonal", "statement": "nnz_csrmat(A, nnz) with the number of elements larger than 1e-7 returns full arrays whose dense form is A with the other elements replaced by zero, whatever the uninitialised buffers contain. With a larger nnz it returns too, and the last row pointer is the number of stored elements.", "quantifier": "all sizes, matrices and contents of uninitialised memory", "why_tests_cant": "the function is called by no test; correctness depends on every pattern of elements", "anchors": ["edpyt/ham_non_local.py:nnz_csrmat", "edpyt/ham_hopping.py:empty_csrmat"]}
{"id": "C189", "title": "The compiled minimiser searches along conjugate directions", "statement": "In a pass of frprmn whose line search ends where the slope along the line is zero, the next direction is downhill, with slope minus the squared gradient. On a quadratic function, while the line searches end like this, the gradients at the points found are orthogonal to each other and to all earlier directions and the directions are conjugate with respect to the matrix; there are at most n such passes for n parameters, after n the gradient is zero, and for a convex function this point is its minimum.", "quantifier": "all numbers of parameters, symmetric matrices, linear terms, starts and contents of uninitialised memory", "why_tests_cant": "finite termination is a statement about all quadratic functions of all dimensions", "anchors": ["edpyt_backend/frprmn.c:frprmn", "edpyt_backend/dlinmin.c:dlinmin"]}
{"id": "C190", "title": "Rate at which Lanczos finds the ground energy", "statement": "In exact arithmetic, for a symmetric matrix whose spectrum is the ground energy E0 and other energies between E1 and Emax, and a start vector with a weight on the ground states, the lowest eigenvalue of the first m rows of the tridiagonal matrix returned by build_sl_tridiag is at least E0 and exceeds it by at most (Emax-E0)*(|phi|^2/weight-1)/T_{m-1}(1+2g)^2, with g=(E1-E0)/(Emax-E1) and T the Chebyshev polynomial, hence by at most 4(Emax-E0)(|phi|^2/weight-1)/(1+2 sqrt g)^(2(m-1)).", "quantifier": "all dimensions, symmetric matrices, spectra, start vectors, thresholds, convergence tests and numbers of steps up to the number the run made", "why_tests_cant": "a rate of convergence is a statement about all matrices and all numbers of steps", "anchors": ["edpyt/lanczos.py:build_sl_tridiag", "edpyt/lanczos.py:sl_step"]}
{"id": "C191", "title": "Energy and double occupancies from the Green functions", "statement": "For every Hamiltonian and its full espace, the thermal mean of the energies in the espace is half the sum over spins and sites of the first moment of the occupied spectral function of the site and of the one-body matrix (with the levels shifted by the reference occupations) times the occupied weights, plus the constant of the reference occupations, all read off the poles and residues of the Green functions that build_gf2_exact returns for the two spins (Galitskii-Migdal). With an on-site interaction only, the same poles and residues give U<n_up n_dw> of every site.", "quantifier": "all sizes up to 32, all one-body matrices, all on-site, density-density, exchange and pair-hopping interactions, reference occupations, inverse temperatures, energy zeros and both spins", "why_tests_cant": "the identity ties two independent outputs of the library (the spectrum and the Green function) for every Hamiltonian", "anchors": ["edpyt/gf2_exact.py:build_gf2_exact", "edpyt/espace.py:build_espace"]}
{"id": "C192", "title": "How a DMFT run with linear mixing ends", "statement": "solve_with_linear_mixing always ends by an exception that says whether the loop converged, and never returns silently. If the step of the loop is a contraction with factor q of the hybridisation, the run ends by Converged after at most the number K of steps for which (1 - alpha (1-q))^K times the first residual is below tol (if max_iter and iter allow K steps), with a hybridisation within tol/(1-q) of the fixed point.", "quantifier": "all DMFT objects (fit, solver, lattice, tolerance, max_iter), start values, mixing parameters, numbers of steps and choices of the line search", "why_tests_cant": "the number of iterations and the branches of the line search depend on the map that is iterated", "anchors": ["edpyt/dmft.py:DMFT.solve_with_linear_mixing", "edpyt/dmft.py:DMFT.distance", "edpyt/dmft.py:DMFT.__call__"]}
{"id": "C193", "title": "Results do not depend on the unit of energy", "statement": "Multiplying every energy of the input (hoppings, levels, chemical potential, interaction matrices) by c > 0 and dividing the inverse temperature by c multiplies every eigenvalue of build_espace and the ground state energy by c, leaves the occupations of get_occupation unchanged, and divides the Green functions of build_gf_exact, build_gf2_exact and build_gf_lanczos by c when energy and broadening are multiplied by c (for Lanczos up to the errors of the runs). When the chemical potentials of the leads are multiplied by c too, the states, rates and lead currents of sequential tunnelling are unchanged, if the same sectors count as near the ground state and the levels of each sector are simple. All this holds as long as no off-diagonal hopping, exchange or pair-hopping element is on different sides of the program's absolute threshold 1e-7 in the two units.", "quantifier": "all numbers of sites, valid inputs, factors c > 0, temperatures, sectors, energies, broadenings, Lanczos runs", "why_tests_cant": "A test compares two units for one cluster; the threshold matters only for inputs with small elements, and the scaling law is a statement about all of them.", "anchors": ["edpyt/build_mb_ham.py:build_mb_ham", "edpyt/espace.py:build_espace", "edpyt/gf_exact.py:build_gf_exact", "edpyt/gf2_exact.py:build_gf2_exact", "edpyt/gf_lanczos.py:build_gf_lanczos", "edpyt/observs.py:get_occupation"]}
{"id": "C194", "title": "A uniform potential or field shifts the spectrum rigidly, and tunnelling depends only on relative potentials", "statement": "Raising all up levels by hu and all down levels by hd (gate voltage, chemical potential, magnetic field) raises every energy that build_espace reports in the sector (nup, ndw) by hu*nup + hd*ndw, for any interaction. Raising all levels and the chemical potentials of both leads by the same amount leaves the states, rates and currents of sequential tunnelling unchanged, as long as the same sectors count as near the ground state.", "quantifier": "all numbers of sites, valid inputs, fields, sectors, runs of the eigensolver, temperatures, lead potentials, couplings, probability vectors", "why_tests_cant": "A test compares one cluster in one field; the active sectors of build_transition_elements are chosen from the spectrum without regard to the leads, so the invariance breaks for particular potentials only.", "anchors": ["edpyt/espace.py:build_espace", "edpyt/sqtunneling.py:build_transition_elements", "edpyt/sqtunneling.py:build_rate_matrix", "edpyt/sqtunneling.py:build_transition_matrix"]}
{"id": "C195", "title": "Green functions: one set of poles, symmetric causal matrices, conjugate values at conjugate energies", "statement": "The matrix that build_gf2_exact returns for the complete espace has one finite set of poles, each the energy of adding an electron of the chosen spin to one of the computed states, with residues that are products of orthonormal amplitudes. At every energy off the real axis the matrix is symmetric, its imaginary part is definite, it is bounded by 1/|eta|, and (Im G_ij)^2 <= Im G_ii Im G_jj. Exact and Lanczos Green functions, the fitted hybridization, the non-interacting impurity Green function, the self-energy and the local Green functions of a nano-structure all take complex conjugate values at complex conjugate energies, so the sum of matsum_gf over positive frequencies is the sum over all Matsubara frequencies.", "quantifier": "all numbers of sites, Hamiltonians, temperatures, spins, energies, broadenings, baths, lattices, self-energies with the same symmetry, numbers of Matsubara frequencies", "why_tests_cant": "The poles and the definiteness concern the whole complex plane and all vectors; a test samples a few energies of a few clusters.", "anchors": ["edpyt/gf2_exact.py:build_gf2_exact", "edpyt/gf_exact.py:Gf", "edpyt/gf_lanczos.py:Gf", "edpyt/gf2_lanczos.py:Gf2", "edpyt/dmft.py:Gfimp", "edpyt/nano_dmft.py:Gfloc", "edpyt/integrate_gf.py:matsum_gf"]}
{"id": "C196", "title": "Reversing the sign of the interaction exchanges charge and spin", "statement": "Replace the down electrons of an input with interaction on the sites by holes: repulsion becomes attraction, levels and hops of the down electrons change sign (with signs of the sites, so that the hops of a bipartite lattice stay). Then the energies that build_espace lists in the sector (nup, ndw) are those listed for the new input in the sector (nup, n-ndw), up to the energy of the filled down levels; the Green functions of the up electrons are equal, those of the down electrons satisfy G'_ij(-z) = -eta_i eta_j G_ij(z); the occupations of the down electrons become those of holes, so the charge of the one model is the magnetisation of the other. For a bipartite lattice in half-filling mode the new input is the old one with -V, and without magnetic field its energies come in charge multiplets: every level of a sector is a level of every sector with the same magnetisation that is at least as close to half filling.", "quantifier": "all numbers of sites, valid inputs with local interaction, site signs, half-filling mode or not, temperatures, energies, runs of the eigensolver", "why_tests_cant": "It relates two separate calculations for every cluster; a test compares a few repulsive and attractive dimers.", "anchors": ["edpyt/espace.py:build_espace", "edpyt/gf2_exact.py:build_gf2_exact", "edpyt/observs.py:get_occupation", "edpyt/ham_local.py:build_ham_local"]}
{"id": "C197", "title": "Every listed energy, not only the lowest, is variational, stable and monotone", "statement": "The k-th energy (counting from 0) that build_espace lists in a sector is at most E exactly when the sector holds k+1 linearly independent vectors whose combinations all have mean energy at most E (min-max principle). Hence: if two inputs differ by d in the sum of their levels and kept hopping elements, energies listed at the same place of the same sector differ by at most d; dropping the hopping elements not larger than 1e-7 moves no level by more than their sum; raising the interaction (without half-filling mode and reference occupations) lowers no level, and raising the on-site repulsion by at most D raises the levels of sector (nup, ndw) by at most D min(nup, ndw), so not at all if there are no electrons of one spin; raising the on-site energies by between lo and hi raises the levels by between lo and hi for each electron. A run that asks for fewer energies lists the first of those a full run lists.", "quantifier": "all numbers of sites from 2 to 32, valid inputs and changes of them, sectors, positions k in the list, runs of the eigensolver", "why_tests_cant": "A test compares a few spectra; the claim is that no excitation of any system jumps, crosses the bound or falls when the interaction is raised, for every position in the list.", "anchors": ["edpyt/espace.py:build_espace", "edpyt/espace.py:solve_sector", "edpyt/build_mb_ham.py:build_mb_ham"]}
{"id": "C198", "title": "Connected systems have one stationary state, and a voltage drives a current", "statement": "If in a rate matrix every state leads to every other one, there is exactly one stationary distribution, it occupies every state, and stationary_solution returns it. This holds for build_rate_matrix after build_espace and build_transition_elements whenever the leads connect all stored states by transitions with non-vanishing amplitude, at every temperature and bias; without bias the result is the grand-canonical distribution, with bias the current does not flow uphill, and it is not zero if one transition is open to both leads. Two sites that are empty in the ground state are connected by any two leads whose couplings are not proportional.", "quantifier": "all rate matrices; all inputs, cutoffs, couplings, temperatures and chemical potentials whose stored states are connected; all correct eigensolvers", "why_tests_cant": "Uniqueness excludes a second solution for every matrix of every size; tests solve single matrices and check one answer.", "anchors": ["edpyt/rates.py:stationary_solution", "edpyt/sqtunneling.py:build_rate_matrix", "edpyt/sqtunneling.py:build_transition_matrix"]}
{"id": "C199", "title": "Ground states without exchange of electrons: unique, nowhere zero, of least spin", "statement": "Where electrons of equal spin can never exchange places - on an open chain with any number of electrons, or with one electron of a spin on a connected unfrustrated cluster - build_espace lists the lowest energy of the sector once, the stored lowest vector has an amplitude on every configuration, and without a magnetic field each further spin turned up raises the lowest energy strictly, for every interaction and all site energies (theorem of Lieb and Mattis). In particular the ground state of two electrons on a connected unfrustrated cluster is a singlet.", "quantifier": "all inputs of build_espace without exchange couplings whose kept hops form an open chain, all sectors; all connected unfrustrated clusters with one electron of a spin; all interactions, site energies and correct eigensolvers", "why_tests_cant": "The statement excludes a degeneracy for every strength of the interaction and every length of the chain; tests diagonalise single clusters.", "anchors": ["edpyt/espace.py:build_espace", "edpyt/build_mb_ham.py:build_mb_ham", "edpyt/matvec_product.py:todense"]}
{"id": "C200", "title": "Mean-field free energies bound the exact free energy from above", "statement": "For a Hamiltonian whose interaction is on-site only, take any system with the same hoppings, arbitrary diagonal levels and no interaction, and compute its occupations with get_occupation. The free energy of the exact spectrum returned by build_espace is at most the free energy of that trial spectrum, plus the cost of restoring the original levels at the trial occupations, plus the interaction evaluated with the product of the trial occupations (Hartree, with the half-filling shift when it is on). In particular, with unchanged levels, the exact mean interaction energy is at most the product of the non-interacting occupations times the interaction.", "quantifier": "every valid Hamiltonian with on-site interaction of any sign, every choice of trial levels, every positive inverse temperature, every eigensolver answer", "why_tests_cant": "A test compares two numbers for a few parameters; the inequality is a statement about every trial system and temperature, and rests on the convexity of the trace exponential.", "anchors": ["edpyt/espace.py:build_espace", "edpyt/observs.py:get_occupation"]}
{"id": "C201", "title": "Ground states with attraction on every site", "statement": "For a spin-independent Hamiltonian with an attractive interaction on every site (of any strengths), no other interaction, and sites joined by hops that the code keeps, the spectrum of build_espace has these properties for every number m of pairs: the lowest level with m up and m down electrons is listed once; in its stored eigenvector all configurations of m doubly occupied sites have amplitudes of one and the same sign, none of them zero; and every level with the same number of electrons but unequal spins lies strictly higher, so the ground state is a spin singlet. With repulsion on every site, half filling and hops only between two groups of sites, the lowest level of each sector with one electron per site is listed once.", "quantifier": "every valid Hamiltonian of any size with such an interaction, frustrated or not, every level and hopping, every number of pairs, every eigensolver answer", "why_tests_cant": "The absence of an accidental degeneracy is a strict inequality for a continuum of Hamiltonians and all sizes; a test sees a gap in a few of them.", "anchors": ["edpyt/espace.py:build_espace", "edpyt/build_mb_ham.py:build_mb_ham"]}
{"id": "C202", "title": "Cotunnelling through degenerate ground states obeys the second law", "statement": "After build_espace on the full spectrum and cotunneling.build_transition_elements with a cutoff that keeps only states of one energy, and away from resonance with charged states, take any stationary distribution of build_rate_matrix with the approximate rates. The current T p summed over the states, with T from build_transition_matrix for leads 0 and 1, never flows from the lower to the higher chemical potential. Without bias it is zero, and the uniform distribution is stationary. It is not zero if some occupied state has a non-zero diagonal element in T.", "quantifier": "every valid Hamiltonian, every temperature, bias of any size, couplings, every degeneracy, every stationary distribution (states may be empty), every eigensolver answer", "why_tests_cant": "The sign of the current is an inequality over all biases and couplings and over all stationary distributions of matrices of any size; the rates change form at two thresholds of the bias.", "anchors": ["edpyt/cotunneling.py:build_rate_matrix", "edpyt/cotunneling.py:build_transition_matrix", "edpyt/cotunneling.py:_Sigma.approximate", "edpyt/cotunneling.py:build_transition_elements"]}
{"id": "C203", "title": "Spin of the half-filled ground state (Lieb)", "statement": "Take a connected cluster without magnetic field, with a repulsion on every site (of any strength, different from site to site) and no other interaction, in the half-filled form with zero levels, whose sites split into two sublattices with hops between them only. Among the sectors with one electron per site, build_espace(H, V) lists the same lowest level in every sector whose polarisation |n_up - n_dw| is at most the difference of the numbers of sites of the two sublattices, and every level of the sectors with a larger polarisation is strictly higher. The ground state therefore has total spin equal to half that difference: a singlet for equal sublattices, a magnet otherwise.", "quantifier": "every admissible cluster of this kind of any size, every strength of repulsion, every split into sublattices, every pair of half-filled sectors, every choice of eigenvectors by the solver", "why_tests_cant": "a statement about the ground state for all strengths of the interaction and all connected two-sublattice geometries; tests sample few models and compare numbers within a tolerance, so they cannot tell an exact degeneracy from a small splitting", "anchors": ["edpyt/espace.py:build_espace", "edpyt/build_mb_ham.py:build_mb_ham"]}
{"id": "C204", "title": "Attraction binds electrons into pairs; repulsive lattices are half filled", "statement": "(1) For a cluster without magnetic field whose only interaction is an attraction on the sites (of any strength, zero included, different from site to site), build_espace(H, V) lists for p up and q down electrons a lowest level whose double is at least the sum of the lowest levels of the sectors (p, p) and (q, q). So the reported ground-state energy egs is a level of a sector with as many up as down electrons, for every chemical potential. (2) With a repulsion on the sites instead, in the half-filled form with zero levels and hops between two sublattices only, egs is a level of a sector with one electron per site. (3) If moreover the cluster is connected and the repulsion is nonzero on every site, egs is the lowest level of every such sector whose polarisation does not exceed the difference of the sublattices.", "quantifier": "every admissible cluster of this kind of any size, every strength of the interaction, every pair of electron numbers, every choice of eigenvectors by the solver", "why_tests_cant": "an inequality between ground-state energies of sectors of different size for all clusters and interactions; tests compare a few numbers for a few clusters", "anchors": ["edpyt/espace.py:build_espace", "edpyt/build_mb_ham.py:build_mb_ham"]}
{"id": "C205", "title": "Responses are reciprocal", "statement": "The occupations that get_occupation reports after build_espace are differentiable functions of the levels and of the on-site interactions. The change of the occupation of one site and spin with the level of another equals the change of the occupation of the other with the level of the first, also for weighted sums of levels and occupations. The change of a site's double occupancy with a level equals the change of that level's occupation with the interaction of the site. The direct responses are not positive and bound the responses across: raising the interaction of a site lowers its double occupancy.", "quantifier": "all valid arguments, all positive beta, all pairs of sites, spins and weights, all values of the levels and of the interaction, every run of build_espace and get_occupation", "why_tests_cant": "A test samples finite differences at a few inputs; reciprocity is an identity between derivatives of results of different runs, at every input.", "anchors": ["edpyt/espace.py:build_espace", "edpyt/observs.py:get_occupation"]}
{"id": "C206", "title": "Drawings show every bond once and the amplitudes of the orbital", "statement": "If the neighbour list gives each neighbour with a larger index once, draw_skeleton draws exactly one line for each pair of bonded atoms, between the projections of the two atoms onto the chosen plane, and no other line. draw_feynman_dyson_orbital adds one circle for each selected atom, at the atom, with radius scale times the squared amplitude, red where the amplitude is positive; the radii add up to scale times the squared norm, and the opposite sign of the orbital exchanges the colours only. Orbitals of the wrong size and unknown axes are rejected before anything is drawn.", "quantifier": "all numbers and positions of atoms, all neighbour lists, all planes, subsets, orbitals and scales", "why_tests_cant": "Tests compare a few pictures; that no bond is lost or drawn twice depends on the order and the double entries of the neighbour list.", "anchors": ["edpyt/cotools.py:draw_skeleton", "edpyt/cotools.py:draw_feynman_dyson_orbital"]}
{"id": "C207", "title": "Lattice occupations with two spins and with MPI", "statement": "integrate(mu) of a nano lattice with self-energies of both spins returns, for every site, the sum over the spins of the occupations, at inverse temperature 70, of the spectra of its local Green functions, up to an explicit error of the 3000 Matsubara frequencies. If the self-energies of both spins are equal it returns what the one-spin lattice returns. Dividing the inequivalent sites among MPI ranks gives on every rank the numbers of the serial run.", "quantifier": "all lattices, partitions into equivalent sites, self-energies of both spins, hybridisations, chemical potentials, numbers of ranks, and contents of the uninitialised output arrays", "why_tests_cant": "All lattices and spectra; the shape of the result depends on np.squeeze and on the number of sites, and with MPI on the share of each rank.", "anchors": ["edpyt/nano_dmft.py:Gfloc.integrate, get_occps", "edpyt/integrate_gf.py:matsum_gf"]}
{"id": "C208", "title": "The entropy responds to a level as its occupation responds to the temperature", "statement": "The impurity entropy that get_entropy reports is a differentiable function of the levels and of the on-site interactions, and the occupations that get_occupation reports are differentiable functions of the temperature T = 1/(kB beta). The change of the entropy with the level of a site and spin is minus the change of the occupation of that level with the temperature, also for weighted sums of levels; the change of the entropy with the interaction of a site is minus the change of the site's double occupancy with the temperature. The bath energies passed to get_entropy are held fixed.", "quantifier": "all valid arguments, all positive temperatures, all sites, spins and weights, all values of the levels and of the interaction, every run of build_espace, get_occupation and get_entropy, every bath list and reference energy", "why_tests_cant": "A test samples finite differences at a few inputs; this is an identity between derivatives of results of two different functions, at every input.", "anchors": ["edpyt/espace.py:build_espace", "edpyt/observs.py:get_occupation", "edpyt/dedlib.py:get_entropy"]}
{"id": "C209", "title": "An occupation responds to a level at most by its fluctuation over the temperature", "statement": "When the level of one site and spin is raised, the occupation n of that level reported by get_occupation after build_espace falls, and its slope lies between -beta n (1 - n) and 0; so the occupation changes by at most beta/4 times the change of the level. The slope of the occupation n of one level with another level of occupation m has a square of at most beta^2 n (1 - n) m (1 - m): a level that is empty or full does not respond.", "quantifier": "all valid arguments, all positive beta, all pairs of sites and spins, all values of the levels, every run of build_espace and get_occupation", "why_tests_cant": "A test samples a few inputs; the bound holds for every Hamiltonian, also with interaction, and for every shift.", "anchors": ["edpyt/espace.py:build_espace", "edpyt/observs.py:get_occupation"]}
{"id": "C210", "title": "Compressibility and spin susceptibility are fluctuations over the temperature", "statement": "The total number of electrons that get_occupation reports after build_espace is the Boltzmann average of nup + ndw over the sectors of the spectrum, and its slope in the argument mu (which is added to every level) is minus beta times the variance of nup + ndw over the sectors. The same holds for any field that shifts all levels of spin up by one amount and all levels of spin down by another: the slope of the conjugate sum of occupations is minus beta times the variance of the conjugate combination of nup and ndw; with opposite amounts this is the magnetisation and the spin susceptibility.", "quantifier": "all valid arguments, all positive beta, all values of mu and of the fields, every run of build_espace and get_occupation", "why_tests_cant": "A test samples finite differences at a few inputs; this is an identity between a derivative across runs and an average over one spectrum, at every input.", "anchors": ["edpyt/espace.py:build_espace", "edpyt/observs.py:get_occupation"]}
{"id": "C211", "title": "The heat capacity is the variance of the energy", "statement": "The mean energy and the entropy that get_entropy computes from a spectrum are differentiable functions of the temperature: the slope of the mean energy is the Boltzmann variance of the energies over kB T^2, that of the entropy is this over T, and neither is negative. The variance does not depend on the reference energy.", "quantifier": "all spectra with at least one energy, all reference energies, all positive temperatures and kB", "why_tests_cant": "A test samples finite differences at a few temperatures; this is an identity at every temperature for every spectrum.", "anchors": ["edpyt/dedlib.py:get_entropy"]}
{"id": "C212", "title": "Filling, magnetisation and energy move at most at a rate known in advance", "statement": "For n sites at inverse temperature beta, the number of electrons summed from get_occupation changes by at most beta n^2 per unit of the chemical potential, whatever the levels, the hopping and the interaction; for a field that shifts the levels of spin up by t c_0 and of spin down by t c_1 the occupations summed with the weights c change by at most beta ((|c_0|+|c_1|) n/2)^2 per unit of t, which for a uniform magnetic field bounds the magnetisation by beta n^2. The mean energy behind get_entropy changes by at most W^2/4 per unit of the inverse temperature if the energies lie within an interval of length W. So an error in mu, in the field or in beta costs a known amount.", "quantifier": "all valid inputs, all pairs of chemical potentials, fields, temperatures, all returned eigenvectors", "why_tests_cant": "A bound for all interactions, levels and pairs of parameters; a test sees a few.", "anchors": ["edpyt/observs.py:get_occupation", "edpyt/espace.py:build_espace", "edpyt/dedlib.py:get_entropy"]}
{"id": "C213", "title": "Every energy of the particle-number spectrum is variational and monotone", "statement": "The k-th energy (counting from 0) that build_espace(H, V, symmetry='N') lists for N electrons is at most E exactly when there are k+1 linearly independent vectors with N electrons whose combinations all have mean energy at most E, for the Hamiltonian that this construction diagonalises. Hence raising elements of the interaction (without half-filling mode and reference occupations) lowers no level; moving the levels that the run reads by amounts between lo and hi moves every energy listed for N electrons by an amount between N lo and N hi; and a run that asks for some of the energies lists the first of those of a full run.", "quantifier": "all valid inputs with symmetry='N', all electron numbers, all listed energies", "why_tests_cant": "The min-max principle ranges over all subspaces and monotonicity over all pairs of inputs.", "anchors": ["edpyt/espace.py:build_espace", "edpyt/espace.py:_N_iter_sectors", "edpyt/espace.py:solve_sector", "edpyt/build_mb_ham.py:build_mb_ham"]}
{"id": "C214", "title": "The sum of the lowest energies of a sector is a minimum over orthonormal vectors", "statement": "For every k the sum of the first k energies that build_espace lists in a sector is the least total mean energy of k orthonormal vectors with these numbers of up and down electrons. So it is at most the sum of the diagonal elements of the Hamiltonian over any k different configurations of the sector, and it is a concave function of the interaction array.", "quantifier": "all valid inputs, all sectors, all numbers of energies, all sets of vectors", "why_tests_cant": "The minimum ranges over all orthonormal sets of vectors and all inputs.", "anchors": ["edpyt/espace.py:build_espace", "edpyt/espace.py:solve_sector"]}
{"id": "C215", "title": "Hopping never raises the free energy", "statement": "For any orthonormal vectors of the many-body space, minus the temperature times the logarithm of the sum of the Boltzmann weights of their mean energies is at least the free energy of the space that build_espace returns. So for Hamiltonians without exchange and pair hopping the free energy is at most that of the same model with all hopping elements set to zero.", "quantifier": "all valid inputs, all positive inverse temperatures, all orthonormal sets of vectors", "why_tests_cant": "The bound ranges over all inputs, all temperatures and all sets of vectors.", "anchors": ["edpyt/espace.py:build_espace", "edpyt/build_mb_ham.py:build_mb_ham"]}
