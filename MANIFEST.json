{
 "claims": [
  {
   "property": "C01",
   "status": "proved",
   "theorems": [
    "Edpyt.C01_generate_states",
    "Edpyt.C01_float_division_exact"
   ],
   "note": ""
  },
  {
   "property": "C02",
   "status": "proved",
   "theorems": [
    "Edpyt.C02_generate_states_rejects"
   ],
   "note": ""
  },
  {
   "property": "C03",
   "status": "proved",
   "theorems": [
    "Edpyt.C03_binsearch_in_bounds",
    "Edpyt.C03_binsearch_sound",
    "Edpyt.C03_binsearch_complete"
   ],
   "note": ""
  },
  {
   "property": "C04",
   "status": "proved",
   "theorems": [
    "Edpyt.C04_lookup_inverts_enumeration"
   ],
   "note": ""
  },
  {
   "property": "C05",
   "status": "proved",
   "theorems": [
    "Edpyt.C05_state_index_of_spin_indices",
    "Edpyt.C05_spin_indices_of_state_index"
   ],
   "note": ""
  },
  {
   "property": "C06",
   "status": "proved",
   "theorems": [
    "Edpyt.C06_get_sector_index",
    "Edpyt.C06_order",
    "Edpyt.C06_get_num_spins"
   ],
   "note": ""
  },
  {
   "property": "C07",
   "status": "proved",
   "theorems": [
    "Edpyt.C07_sum",
    "Edpyt.C07_entries",
    "Edpyt.C07_cap",
    "Edpyt.C07_other",
    "Edpyt.C07_sector_dim"
   ],
   "note": ""
  },
  {
   "property": "C08",
   "status": "proved",
   "theorems": [
    "Edpyt.C08_cdg",
    "Edpyt.C08_c",
    "Edpyt.C08_inverse",
    "Edpyt.C08_check"
   ],
   "note": ""
  },
  {
   "property": "C09",
   "status": "proved",
   "theorems": [
    "Edpyt.C09_sign",
    "Edpyt.C09_cdgc_sign"
   ],
   "note": ""
  },
  {
   "property": "C10",
   "status": "proved",
   "theorems": [
    "Edpyt.C10_code_is_spec",
    "Edpyt.C10_anticommutation"
   ],
   "note": ""
  },
  {
   "property": "C11",
   "status": "proved",
   "theorems": [
    "Edpyt.C11_cdgc"
   ],
   "note": ""
  },
  {
   "property": "C12",
   "status": "proved",
   "theorems": [
    "Edpyt.C12_get_cdg_sector",
    "Edpyt.C12_get_c_sector",
    "Edpyt.C12_inverse"
   ],
   "note": ""
  },
  {
   "property": "C13",
   "status": "partial",
   "theorems": [
    "Edpyt.C13_intrep_binrep_refuted",
    "Edpyt.C13_intrep_binrep_reverses",
    "Edpyt.C13_intrep_binrep_partial",
    "Edpyt.C13_binrep_digits",
    "Edpyt.C13_count_bits"
   ],
   "note": "the property as stated is false of the code (C13_intrep_binrep_refuted); the reversal law and the palindromic case are proved"
  },
  {
   "property": "C14",
   "status": "proved",
   "theorems": [
    "Edpyt.C14_compression"
   ],
   "note": ""
  },
  {
   "property": "C15",
   "status": "proved",
   "theorems": [
    "Edpyt.C15_hopping_buffers"
   ],
   "note": ""
  },
  {
   "property": "C16",
   "status": "proved",
   "theorems": [
    "Edpyt.C16_hopping_elements",
    "Edpyt.C16_hopping_symmetric",
    "Edpyt.C16_nonsymmetric_is_transposed"
   ],
   "note": ""
  },
  {
   "property": "C17",
   "status": "proved",
   "theorems": [
    "Edpyt.C17_symmetric"
   ],
   "note": ""
  },
  {
   "property": "C18",
   "status": "proved",
   "theorems": [
    "Edpyt.C18_local_energy",
    "Edpyt.C18_n_local_energy",
    "Edpyt.C18_schedule_exists"
   ],
   "note": ""
  },
  {
   "property": "C19",
   "status": "partial",
   "theorems": [
    "Edpyt.C19_refuted",
    "Edpyt.C19_symmetries_agree_partial"
   ],
   "note": "False of the code for spin-dependent on-site energies (C19_refuted: the N-symmetry branch uses the down energies for both spins); agreement proved otherwise."
  },
  {
   "property": "C20",
   "status": "proved",
   "theorems": [
    "Edpyt.C20_particle_hole"
   ],
   "note": ""
  },
  {
   "property": "C21",
   "status": "proved",
   "theorems": [
    "Edpyt.C21_nonlocal_buffers"
   ],
   "note": ""
  },
  {
   "property": "C22",
   "status": "partial",
   "theorems": [
    "Edpyt.C22_nonlocal_elements_partial",
    "Edpyt.C22_nonlocal_fixed_N",
    "Edpyt.C22_refuted",
    "Edpyt.C22_pair_only_raises"
   ],
   "note": "False as stated: the opposite-spin exchange term is stored with the wrong sign (C22_refuted, ham_non_local.py:127). Proved: exact description of the fixed-(nup,ndw) code, the fixed-N code is exactly the documented operator, and the call without Jx raises."
  },
  {
   "property": "C23",
   "status": "partial",
   "theorems": [
    "Edpyt.C23_N_vs_Sz_partial",
    "Edpyt.C23_pair_hopping_agrees",
    "Edpyt.C23_refuted"
   ],
   "note": "False as stated because of the same sign (C23_refuted). Proved: the two paths differ by exactly twice the opposite-spin exchange; pair hopping and diagonal elements agree."
  },
  {
   "property": "C24",
   "status": "proved",
   "theorems": [
    "Edpyt.C24_matvec_eq_todense",
    "Edpyt.C24_matvec_exists"
   ],
   "note": ""
  },
  {
   "property": "C25",
   "status": "partial",
   "theorems": [
    "Edpyt.C25_build_espace_partial",
    "Edpyt.C25_default_neig",
    "Edpyt.C25_refuted",
    "Edpyt.C25_refuted_N"
   ],
   "note": "False as stated: for n=1 (C25_refuted), and for symmetry N with a plain interaction array at every n (C25_refuted_N), todense raises IndexError. Proved for symmetry sz and 2 <= n <= 32."
  },
  {
   "property": "C26",
   "status": "proved",
   "theorems": [
    "Edpyt.C26_UPmultiply",
    "Edpyt.C26_DWmultiply",
    "Edpyt.C26_Multiply",
    "Edpyt.C26_addresses"
   ],
   "note": ""
  },
  {
   "property": "C27",
   "status": "proved",
   "theorems": [
    "Edpyt.C27_todense_with_exchange",
    "Edpyt.C27_todense_is_hubbard"
   ],
   "note": ""
  },
  {
   "property": "C28",
   "status": "proved",
   "theorems": [
    "Edpyt.C28_build_espace"
   ],
   "note": ""
  },
  {
   "property": "C29",
   "status": "proved",
   "theorems": [
    "Edpyt.C29_egs_independent"
   ],
   "note": ""
  },
  {
   "property": "C30",
   "status": "proved",
   "theorems": [
    "Edpyt.C30_screen_espace",
    "Edpyt.C30_idempotent",
    "Edpyt.C30_ground_state"
   ],
   "note": ""
  },
  {
   "property": "C31",
   "status": "proved",
   "theorems": [
    "Edpyt.C31_adjust",
    "Edpyt.C31_bounds",
    "Edpyt.C31_unordered_raises"
   ],
   "note": ""
  },
  {
   "property": "C32",
   "status": "proved",
   "theorems": [
    "Edpyt.C32_history"
   ],
   "note": ""
  },
  {
   "property": "C33",
   "status": "proved",
   "theorems": [
    "Edpyt.C33_non_interacting"
   ],
   "note": ""
  },
  {
   "property": "C34",
   "status": "proved",
   "theorems": [
    "Edpyt.C34_project_exact_up",
    "Edpyt.C34_project_exact_dw",
    "Edpyt.C34_adjoint_up",
    "Edpyt.C34_adjoint_dw",
    "Edpyt.C34_project_up",
    "Edpyt.C34_project_dw"
   ],
   "note": ""
  },
  {
   "property": "C35",
   "status": "proved",
   "theorems": [
    "Edpyt.C35_sum_rule",
    "Edpyt.C35_from_build_espace"
   ],
   "note": ""
  },
  {
   "property": "C36",
   "status": "proved",
   "theorems": [
    "Edpyt.C36_causal",
    "Edpyt.C36_exact"
   ],
   "note": ""
  },
  {
   "property": "C37",
   "status": "partial",
   "theorems": [
    "Edpyt.C37_refuted",
    "Edpyt.C37_refuted_from_build_espace",
    "Edpyt.C37_up_partial"
   ],
   "note": "False of the code: ispin=1 always raises (C37_refuted; C37_refuted_from_build_espace for every espace built by build_espace) because gf_exact.py:111 goes to the sector with one more UP electron. Proved: ispin=0 always succeeds, with matrix elements by C34 and sum rule by C35."
  },
  {
   "property": "C38",
   "status": "proved",
   "theorems": [
    "Edpyt.C38_continued_fraction",
    "Edpyt.C38_spectral",
    "Edpyt.C38_agree"
   ],
   "note": ""
  },
  {
   "property": "C39",
   "status": "proved",
   "theorems": [
    "Edpyt.C39_terminates",
    "Edpyt.C39_steps",
    "Edpyt.C39_maxn_one_raises",
    "Edpyt.C39_nonzero_start"
   ],
   "note": ""
  },
  {
   "property": "C40",
   "status": "proved",
   "theorems": [
    "Edpyt.C40_basis",
    "Edpyt.C40_resolvent"
   ],
   "note": ""
  },
  {
   "property": "C41",
   "status": "proved",
   "theorems": [
    "Edpyt.C41_evaluate",
    "Edpyt.C41_polarisation"
   ],
   "note": ""
  },
  {
   "property": "C42",
   "status": "partial",
   "theorems": [
    "Edpyt.C42_refuted",
    "Edpyt.C42_upper_partial",
    "Edpyt.C42_separate_partial"
   ],
   "note": "False of the code: gf2[j,i] with j>i raises TypeError on every array build_gf2_lanczos fills (C42_refuted), because the lower triangle stays None. Proved: item access on and above the diagonal agrees with the evaluated matrix."
  },
  {
   "property": "C43",
   "status": "proved",
   "theorems": [
    "Edpyt.C43_expectation",
    "Edpyt.C43_particle_number",
    "Edpyt.C43_layout",
    "Edpyt.C43_thermal",
    "Edpyt.C43_thermal_bounds"
   ],
   "note": ""
  },
  {
   "property": "C44",
   "status": "partial",
   "theorems": [
    "Edpyt.C44_fortran_partial",
    "Edpyt.C44_c_order",
    "Edpyt.C44_refuted"
   ],
   "note": "False of the code for C ordered eigenvector arrays: the call changes the shape of the caller's array and a second call raises ValueError (C44_refuted, C44_c_order). Proved: Fortran ordered arrays are left unchanged."
  },
  {
   "property": "C45",
   "status": "proved",
   "theorems": [
    "Edpyt.C45_collect_dw",
    "Edpyt.C45_collect_up",
    "Edpyt.C45_inverse",
    "Edpyt.C45_refuses"
   ],
   "note": ""
  },
  {
   "property": "C46",
   "status": "proved",
   "theorems": [
    "Edpyt.C46_mpi_matvec",
    "Edpyt.C46_exists",
    "Edpyt.C46_refuses"
   ],
   "note": ""
  },
  {
   "property": "C47",
   "status": "proved",
   "theorems": [
    "Edpyt.C47_mpi_eq_serial",
    "Edpyt.C47_rows"
   ],
   "note": ""
  },
  {
   "property": "C48",
   "status": "proved",
   "theorems": [
    "Edpyt.C48_hamiltonian",
    "Edpyt.C48_green",
    "Edpyt.C48_green_real",
    "Edpyt.C48_build_siam",
    "Edpyt.C48_reset_bath_out_of_sync"
   ],
   "note": ""
  },
  {
   "property": "C49",
   "status": "proved",
   "theorems": [
    "Edpyt.C49_impurity",
    "Edpyt.C49_hybrid",
    "Edpyt.C49_weiss",
    "Edpyt.C49_self_consistent",
    "Edpyt.C49_unset"
   ],
   "note": ""
  },
  {
   "property": "C50",
   "status": "proved",
   "theorems": [
    "Edpyt.C50_converged",
    "Edpyt.C50_failed",
    "Edpyt.C50_verdict",
    "Edpyt.C50_second_run"
   ],
   "note": ""
  },
  {
   "property": "C51",
   "status": "partial",
   "theorems": [
    "Edpyt.C51_refuted",
    "Edpyt.C51_causal_partial"
   ],
   "note": "False of the code (C51_refuted): boolean-mask indexing makes a copy, the clamped values are discarded. Proved: already causal data satisfy the claim, and the data reach the solver unchanged."
  },
  {
   "property": "C52",
   "status": "proved",
   "theorems": [
    "Edpyt.C52_gradient",
    "Edpyt.C52_matsubara",
    "Edpyt.C52_stationary"
   ],
   "note": ""
  },
  {
   "property": "C53",
   "status": "partial",
   "theorems": [
    "Edpyt.C53_sorted_partial",
    "Edpyt.C53_refuted",
    "Edpyt.C53_couplings"
   ],
   "note": "False for even nbath >= 42, where neighbouring levels cross (C53_refuted); order and symmetry proved below, couplings for all nbath."
  },
  {
   "property": "C54",
   "status": "partial",
   "theorems": [
    "Edpyt.C54_agree_partial",
    "Edpyt.C54_refuted"
   ],
   "note": "False for nbath = 3 (C54_refuted: C and Python differ); agreement proved for the sizes stated in C54_agree_partial."
  },
  {
   "property": "C55",
   "status": "partial",
   "theorems": [
    "Edpyt.C55_sqtnl",
    "Edpyt.C55_cotnl",
    "Edpyt.C55_cotnl_approximate",
    "Edpyt.C55_cotnl_integrate",
    "Edpyt.C55_cotunneling_conserves",
    "Edpyt.C55_cotunneling",
    "Edpyt.C55_cotunneling_approximate",
    "Edpyt.C55_exact_refuted",
    "Edpyt.C55_sqtnl_from_spectrum",
    "Edpyt.C55_sequential"
   ],
   "note": "False for the exact integration of cotunnelling (C55_exact_refuted: negative rate). Proved for sequential tunnelling in both modules (end to end in C55_sqtnl_from_spectrum), and for cotunnelling in both modules with the approximate method and the numerical integration of cotnl; conservation for every method."
  },
  {
   "property": "C56",
   "status": "proved",
   "theorems": [
    "Edpyt.C56_from_build_espace",
    "Edpyt.C56_detailed_balance",
    "Edpyt.C56_stationary"
   ],
   "note": ""
  },
  {
   "property": "C57",
   "status": "proved",
   "theorems": [
    "Edpyt.C57_selects_zero",
    "Edpyt.C57_unique",
    "Edpyt.C57_degenerate"
   ],
   "note": ""
  },
  {
   "property": "C58",
   "status": "proved",
   "theorems": [
    "Edpyt.C58_cotnl",
    "Edpyt.C58_cotunneling",
    "Edpyt.C58_same_lead"
   ],
   "note": ""
  },
  {
   "property": "C59",
   "status": "proved",
   "theorems": [
    "Edpyt.C59_valid",
    "Edpyt.C59_mem",
    "Edpyt.C59_no_key_error",
    "Edpyt.C59_active_neig",
    "Edpyt.C59_from_build_espace"
   ],
   "note": ""
  },
  {
   "property": "C60",
   "status": "partial",
   "theorems": [
    "Edpyt.C60_iff",
    "Edpyt.C60_refuted",
    "Edpyt.C60_partial"
   ],
   "note": "False of the code (C60_refuted: sectors outside the Hilbert space are listed). Exact characterisation C60_iff and the interior case proved."
  },
  {
   "property": "C61",
   "status": "partial",
   "theorems": [
    "Edpyt.C61_partial",
    "Edpyt.C61_refuted_top",
    "Edpyt.C61_refuted_bottom",
    "Edpyt.C61_refuted_single_site"
   ],
   "note": "False of the code for the sectors next to the empty and the full one (C61_refuted_top, C61_refuted_bottom, C61_refuted_single_site). Proved for 1 < N < 2n-1."
  },
  {
   "property": "C62",
   "status": "partial",
   "theorems": [
    "Edpyt.C62_positive",
    "Edpyt.C62_balance",
    "Edpyt.C62_refuted",
    "Edpyt.C62_cutoff_refuted"
   ],
   "note": "False at z=0 and beyond the cutoff (C62_refuted, C62_cutoff_refuted). Positivity and balance proved inside the cutoff."
  },
  {
   "property": "C63",
   "status": "partial",
   "theorems": [
    "Edpyt.C63_refuted",
    "Edpyt.C63_partial"
   ],
   "note": "False of the code everywhere (C63_refuted: nested Fermi functions, always larger than the product)."
  },
  {
   "property": "C64",
   "status": "proved",
   "theorems": [
    "Edpyt.C64_entropy",
    "Edpyt.C64_bounds",
    "Edpyt.C64_impurity_entropy",
    "Edpyt.C64_impurity_bounds"
   ],
   "note": ""
  },
  {
   "property": "C65",
   "status": "proved",
   "theorems": [
    "Edpyt.C65_draw",
    "Edpyt.C65_probability",
    "Edpyt.C65_call"
   ],
   "note": ""
  },
  {
   "property": "C66",
   "status": "proved",
   "theorems": [
    "Edpyt.C66_zeros_exist",
    "Edpyt.C66_fit",
    "Edpyt.C66_siam"
   ],
   "note": ""
  },
  {
   "property": "C67",
   "status": "proved",
   "theorems": [
    "Edpyt.C67_mnbrak",
    "Edpyt.C67_dbrent",
    "Edpyt.C67_dbrent_junk",
    "Edpyt.C67_dlinmin",
    "Edpyt.C67_frprmn"
   ],
   "note": ""
  },
  {
   "property": "C68",
   "status": "partial",
   "theorems": [
    "Edpyt.C68_partial",
    "Edpyt.C68_refuted",
    "Edpyt.C68_refuted_few"
   ],
   "note": "False unless the number of ranks divides N (C68_refuted, C68_refuted_few); proved if it does. The script also imports ded_solve, which dedlib does not define."
  },
  {
   "property": "C69",
   "status": "proved",
   "theorems": [
    "Edpyt.C69_text",
    "Edpyt.C69_unambiguous"
   ],
   "note": ""
  },
  {
   "property": "C70",
   "status": "partial",
   "theorems": [
    "Edpyt.C70_orthogonal_partial",
    "Edpyt.C70_orthonormal_partial",
    "Edpyt.C70_refuted"
   ],
   "note": "Proved for real matrices; false for complex ones, no conjugation (C70_refuted)."
  },
  {
   "property": "C71",
   "status": "proved",
   "theorems": [
    "Edpyt.C71_arpack_arguments",
    "Edpyt.C71_solve_sector"
   ],
   "note": ""
  },
  {
   "property": "C72",
   "status": "partial",
   "theorems": [
    "Edpyt.C72_partial",
    "Edpyt.C72_refuted"
   ],
   "note": "False on exceptions (C72_refuted); proved on normal return."
  },
  {
   "property": "C73",
   "status": "proved",
   "theorems": [
    "Edpyt.C73_step",
    "Edpyt.C73_driver"
   ],
   "note": ""
  },
  {
   "property": "C74",
   "status": "partial",
   "theorems": [
    "Edpyt.C74_refuted",
    "Edpyt.C74_with_ed_partial"
   ],
   "note": "False of the code (C74_refuted): the lattice objects of dmft.py have no attribute ed, so initialize always raises AttributeError. Proved for objects that have one."
  },
  {
   "property": "C75",
   "status": "partial",
   "theorems": [
    "Edpyt.C75_refuted",
    "Edpyt.C75_with_goal_partial"
   ],
   "note": "False of the code (C75_refuted): the occupation is None and formatting it raises TypeError at the first call. Proved when an occupation is available."
  },
  {
   "property": "C76",
   "status": "proved",
   "theorems": [
    "Edpyt.C76_project",
    "Edpyt.C76_adjoint"
   ],
   "note": ""
  },
  {
   "property": "C77",
   "status": "proved",
   "theorems": [
    "Edpyt.C77_elements_up",
    "Edpyt.C77_elements_down"
   ],
   "note": ""
  },
  {
   "property": "C78",
   "status": "partial",
   "theorems": [
    "Edpyt.C78_partial",
    "Edpyt.C78_refuted"
   ],
   "note": "False beyond 100 temperatures because of the cutoff (C78_refuted); proved within."
  },
  {
   "property": "C79",
   "status": "partial",
   "theorems": [
    "Edpyt.C79_sqtnl",
    "Edpyt.C79_sqtnl_from_spectrum",
    "Edpyt.C79_cotnl_partial",
    "Edpyt.C79_cotnl_refuted"
   ],
   "note": "Proved for sqtnl. False of cotnl (C79_cotnl_refuted); exact description of both lists of states in C79_cotnl_partial."
  },
  {
   "property": "C80",
   "status": "partial",
   "theorems": [
    "Edpyt.C80_partial",
    "Edpyt.C80_refuted_step",
    "Edpyt.C80_refuted"
   ],
   "note": "False: the lower end of the bracket is set to the old best point instead of the trial (C80_refuted_step, C80_refuted); the upper side is right (C80_partial)."
  },
  {
   "property": "C81",
   "status": "proved",
   "theorems": [
    "Edpyt.C81_delta",
    "Edpyt.C81_ddelta",
    "Edpyt.C81_chi2",
    "Edpyt.C81_dchi2",
    "Edpyt.C81_slope"
   ],
   "note": ""
  },
  {
   "property": "C82",
   "status": "proved",
   "theorems": [
    "Edpyt.C82_fit_improves"
   ],
   "note": ""
  },
  {
   "property": "C83",
   "status": "partial",
   "theorems": [
    "Edpyt.C83_returns_memory",
    "Edpyt.C83_refuted",
    "Edpyt.C83_partial"
   ],
   "note": "False: the start is uninitialised memory (C83_refuted, C83_returns_memory). Determined by arguments and that memory (C83_partial)."
  },
  {
   "property": "C84",
   "status": "partial",
   "theorems": [
    "Edpyt.C84_refuted",
    "Edpyt.C84_partial"
   ],
   "note": "False for the spin sectors of build_espace, where eprint raises (C84_refuted); proved for sectors of a total particle number."
  },
  {
   "property": "C85",
   "status": "proved",
   "theorems": [
    "Edpyt.C85_matsum_limit",
    "Edpyt.C85_matsum_error"
   ],
   "note": ""
  },
  {
   "property": "C86",
   "status": "proved",
   "theorems": [
    "Edpyt.C86_siam_mean",
    "Edpyt.C86_siam_diverges",
    "Edpyt.C86_siam_returns"
   ],
   "note": ""
  },
  {
   "property": "C87",
   "status": "partial",
   "theorems": [
    "Edpyt.C87_partial",
    "Edpyt.C87_refuted"
   ],
   "note": "False when fewer than half of the trials are accepted (C87_refuted); proved if each rank needs at most two passes per sample."
  },
  {
   "property": "C88",
   "status": "partial",
   "theorems": [
    "Edpyt.C88_partial",
    "Edpyt.C88_refuted"
   ],
   "note": "False: samples are counted for all impurities together (C88_refuted); exact value and sufficient condition in C88_partial."
  },
  {
   "property": "C89",
   "status": "partial",
   "theorems": [
    "Edpyt.C89_refuted",
    "Edpyt.C89_partial"
   ],
   "note": "False: a scalar U leaves V1 unbound (C89_refuted); proved for arrays and dictionaries."
  },
  {
   "property": "C90",
   "status": "proved",
   "theorems": [
    "Edpyt.C90_occupation",
    "Edpyt.C90_total"
   ],
   "note": ""
  },
  {
   "property": "C91",
   "status": "proved",
   "theorems": [
    "Edpyt.C91_entries",
    "Edpyt.C91_resolvent"
   ],
   "note": ""
  },
  {
   "property": "C92",
   "status": "proved",
   "theorems": [
    "Edpyt.C92_gf_exact",
    "Edpyt.C92_from_build_espace"
   ],
   "note": ""
  },
  {
   "property": "C93",
   "status": "proved",
   "theorems": [
    "Edpyt.C93_gf2_exact",
    "Edpyt.C93_from_build_espace",
    "Edpyt.C93_diagonal"
   ],
   "note": ""
  },
  {
   "property": "C94",
   "status": "proved",
   "theorems": [
    "Edpyt.C94_continuity",
    "Edpyt.C94_conservation",
    "Edpyt.C94_equilibrium",
    "Edpyt.C94_from_build_espace"
   ],
   "note": ""
  },
  {
   "property": "C95",
   "status": "proved",
   "theorems": [
    "Edpyt.C95_second_law"
   ],
   "note": ""
  },
  {
   "property": "C96",
   "status": "proved",
   "theorems": [
    "Edpyt.C96_electron",
    "Edpyt.C96_hole",
    "Edpyt.C96_sigma",
    "Edpyt.C96_from_build_espace"
   ],
   "note": ""
  },
  {
   "property": "C97",
   "status": "partial",
   "theorems": [
    "Edpyt.C97_partial",
    "Edpyt.C97_refuted",
    "Edpyt.C97_refuted_cutoff"
   ],
   "note": "Proved (C97_partial) for beta|x| >= 1e-18 and beta x <= 1000. C97_refuted: at x = 0 the code returns beta times the true value; C97_refuted_cutoff: above the cut-off it drops a positive rate."
  },
  {
   "property": "C98",
   "status": "proved",
   "theorems": [
    "Edpyt.C98_gf_lanczos",
    "Edpyt.C98_exact",
    "Edpyt.C98_from_build_espace"
   ],
   "note": ""
  },
  {
   "property": "C99",
   "status": "partial",
   "theorems": [
    "Edpyt.C99_gf2_lanczos_partial",
    "Edpyt.C99_refuted"
   ],
   "note": "False as stated: build_gf_offdiag does not catch ZeroNormInitialVector, so build_gf2_lanczos raises for the two-site Hubbard model (C99_refuted). Proved: it ends, raises only if c\u2020_i+c\u2020_j or c_i+c_j (nearly) annihilates an eigenstate it could act on, and otherwise every entry obeys the bound (C99_gf2_lanczos_partial)."
  },
  {
   "property": "C100",
   "status": "proved",
   "theorems": [
    "Edpyt.C100_integrate_gf",
    "Edpyt.C100_limit",
    "Edpyt.C100_bounds"
   ],
   "note": "eigh(a,b) by its contract (ascending eigenvalues, b-orthonormal eigenvectors); exact arithmetic; scalar mu. The argument R is ignored by the code (overwritten with 1e10)."
  },
  {
   "property": "C101",
   "status": "proved",
   "theorems": [
    "Edpyt.C101_integrate_gf_exact",
    "Edpyt.C101_error_limit",
    "Edpyt.C101_get_occupation",
    "Edpyt.C101_routes_agree"
   ],
   "note": ""
  },
  {
   "property": "C102",
   "status": "partial",
   "theorems": [
    "Edpyt.C102_local_gf_partial",
    "Edpyt.C102_refuted_index",
    "Edpyt.C102_refuted_one_site"
   ],
   "note": "False as stated: IndexError when an inequivalent site has an index not below their number (C102_refuted_index), and with a single inequivalent site only the first frequency is computed (C102_refuted_one_site). Proved otherwise (C102_local_gf_partial)."
  },
  {
   "property": "C103",
   "status": "partial",
   "theorems": [
    "Edpyt.C103_mpi_partial",
    "Edpyt.C103_refuted"
   ],
   "note": "False as stated: a run with a number of ranks that does not divide the number of sites raises on every rank (C103_refuted). Proved for a divisor (C103_mpi_partial)."
  },
  {
   "property": "C104",
   "status": "proved",
   "theorems": [
    "Edpyt.C104_nonsingular",
    "Edpyt.C104_causal",
    "Edpyt.C104_call"
   ],
   "note": ""
  },
  {
   "property": "C105",
   "status": "partial",
   "theorems": [
    "Edpyt.C105_delta_partial",
    "Edpyt.C105_refuted"
   ],
   "note": "False for overlap matrices other than the identity (C105_refuted: Delta(i) = i/4). Proved for S = 1 (C105_delta_partial)."
  },
  {
   "property": "C106",
   "status": "proved",
   "theorems": [
    "Edpyt.C106_gf_exact",
    "Edpyt.C106_gf2_exact",
    "Edpyt.C106_gf_lanczos",
    "Edpyt.C106_occupation"
   ],
   "note": ""
  },
  {
   "property": "C107",
   "status": "proved",
   "theorems": [
    "Edpyt.C107_gf2_exact",
    "Edpyt.C107_impurity_cut",
    "Edpyt.C107_impurity",
    "Edpyt.C107_impurity_exact",
    "Edpyt.C107_impurity_lanczos"
   ],
   "note": ""
  },
  {
   "property": "C108",
   "status": "partial",
   "theorems": [
    "Edpyt.C108_dropped",
    "Edpyt.C108_zero_partial",
    "Edpyt.C108_bound_partial",
    "Edpyt.C108_refuted"
   ],
   "note": "false of the code: bath couplings not larger than 1e-7 are dropped when the Hamiltonian is built but kept in free(z) (C108_refuted). Proved: Sigma is exactly minus the hybridisation of the dropped couplings, hence zero for couplings above the cut and at most nb*1e-14/|Im z| always."
  },
  {
   "property": "C109",
   "status": "proved",
   "theorems": [
    "Edpyt.C109_symmetry_gf2_exact",
    "Edpyt.C109_gf2_exact",
    "Edpyt.C109_occupation",
    "Edpyt.C109_gf_lanczos"
   ],
   "note": ""
  },
  {
   "property": "C110",
   "status": "proved",
   "theorems": [
    "Edpyt.C110_gf_lanczos",
    "Edpyt.C110_gf_exact",
    "Edpyt.C110_occupation"
   ],
   "note": ""
  },
  {
   "property": "C111",
   "status": "proved",
   "theorems": [
    "Edpyt.C111_gf2_exact",
    "Edpyt.C111_gf_exact",
    "Edpyt.C111_occupation",
    "Edpyt.C111_impurity",
    "Edpyt.C111_gf_lanczos"
   ],
   "note": ""
  },
  {
   "property": "C112",
   "status": "proved",
   "theorems": [
    "Edpyt.C112_gf2_exact",
    "Edpyt.C112_gf_exact",
    "Edpyt.C112_occupation",
    "Edpyt.C112_gf_lanczos"
   ],
   "note": ""
  },
  {
   "property": "C113",
   "status": "proved",
   "theorems": [
    "Edpyt.C113_gf_lanczos",
    "Edpyt.C113_gf2_exact",
    "Edpyt.C113_gf_exact",
    "Edpyt.C113_occupation",
    "Edpyt.C113_energies"
   ],
   "note": ""
  },
  {
   "property": "C114",
   "status": "proved",
   "theorems": [
    "Edpyt.C114_dyson_cut",
    "Edpyt.C114_dyson",
    "Edpyt.C114_exact",
    "Edpyt.C114_lanczos",
    "Edpyt.C114_steps_fresh"
   ],
   "note": ""
  },
  {
   "property": "C115",
   "status": "proved",
   "theorems": [
    "Edpyt.C115_field_reversal",
    "Edpyt.C115_occupation",
    "Edpyt.C115_no_field"
   ],
   "note": ""
  },
  {
   "property": "C116",
   "status": "partial",
   "theorems": [
    "Edpyt.C116_converged_partial",
    "Edpyt.C116_refuted_level",
    "Edpyt.C116_refuted_adjust"
   ],
   "note": "False of the code if gfloc.ed is not zero (C116_refuted_level: the inverses differ by ed) and if mu is adjusted after the impurity was solved (C116_refuted_adjust). Proved for ed = 0 with the change of mu in the bound (C116_converged_partial)."
  },
  {
   "property": "C117",
   "status": "proved",
   "theorems": [
    "Edpyt.C117_gap",
    "Edpyt.C117_fixed_point"
   ],
   "note": ""
  },
  {
   "property": "C118",
   "status": "proved",
   "theorems": [
    "Edpyt.C118_truncated",
    "Edpyt.C118_screened"
   ],
   "note": ""
  },
  {
   "property": "C119",
   "status": "partial",
   "theorems": [
    "Edpyt.C119_solve_partial",
    "Edpyt.C119_spin_solve_partial",
    "Edpyt.C119_adjust_none",
    "Edpyt.C119_refuted"
   ],
   "note": "false of the code (C119_refuted): solve screens the states at the default beta=1e6 whatever self.beta is; proved with the extra error 2*4^n*(1e-9)^(beta/1e6)/|eta|, which is negligible for beta >= 1e6 only. With adjust_neig and the default neig=None solve raises TypeError (C119_adjust_none)."
  },
  {
   "property": "C120",
   "status": "partial",
   "theorems": [
    "Edpyt.C120_pairs",
    "Edpyt.C120_close",
    "Edpyt.C120_refuted_eigvals_only"
   ],
   "note": "The pairs and the distance to the exact spectrum are proved in exact arithmetic under the LAPACK contract; eigvals_only=True is refuted: the array is unpacked into two names, so the call raises ValueError unless exactly two eigenvalues are selected, and then returns one number (C120_refuted_eigvals_only). The MPI variant is not modelled."
  },
  {
   "property": "C121",
   "status": "proved",
   "theorems": [
    "Edpyt.C121_integrate",
    "Edpyt.C121_free"
   ],
   "note": ""
  },
  {
   "property": "C122",
   "status": "proved",
   "theorems": [
    "Edpyt.C122_adjust_mu",
    "Edpyt.C122_free"
   ],
   "note": ""
  },
  {
   "property": "C123",
   "status": "partial",
   "theorems": [
    "Edpyt.C123_integrate_partial",
    "Edpyt.C123_room_partial",
    "Edpyt.C123_refuted",
    "Edpyt.C123_refuted_spin_default",
    "Edpyt.C123_spin_partial"
   ],
   "note": "false of the code in general: the temperature is fixed to 300 K (C123_refuted: a level at -0.01 eV and beta=1e6 give a result off by more than a quarter); SpinGfimp.integrate() with its default argument always raises AttributeError (C123_refuted_spin_default). Proved at 300 K with the explicit quadrature error."
  },
  {
   "property": "C124",
   "status": "partial",
   "theorems": [
    "Edpyt.C124_single_partial",
    "Edpyt.C124_refuted"
   ],
   "note": "proved for arrays of one element (C124_single_partial); false for two or more (C124_refuted): np.resize repeats the poles in memory order while the residues keep their order."
  },
  {
   "property": "C125",
   "status": "partial",
   "theorems": [
    "Edpyt.C125_truncated",
    "Edpyt.C125_solve_partial",
    "Edpyt.C125_local_moments_partial",
    "Edpyt.C125_refuted"
   ],
   "note": "C125_truncated bounds the error of get_occupation by the relative weight dropped, for any truncated set of eigen-states. After solve that is at most 4^n (1e-9)^(beta/1e6) (C125_solve_partial, C125_local_moments_partial), which is only small for beta of the order of 1e6 and above: solve screens with beta=1e6 whatever self.beta is, and at beta = log 2 the occupation is 1 instead of 8/11 (C125_refuted). Local moments: for impurities with a common beta and number of sites."
  },
  {
   "property": "C126",
   "status": "partial",
   "theorems": [
    "Edpyt.C126_projection_partial",
    "Edpyt.C126_ends",
    "Edpyt.C126_refuted",
    "Edpyt.C126_exhausted"
   ],
   "note": "True of the lower triangle always, and of the whole block if it has at most maxn-L rows (C126_projection_partial, C126_exhausted). False of the upper triangle otherwise: T[n,n-Lc] with n<Lc is stored in the last columns, which are returned when start vectors were deflated (C126_refuted, a start vector given twice)."
  },
  {
   "property": "C127",
   "status": "proved",
   "theorems": [
    "Edpyt.C127_variational",
    "Edpyt.C127_repulsion",
    "Edpyt.C127_concave",
    "Edpyt.C127_levels"
   ],
   "note": ""
  },
  {
   "property": "C128",
   "status": "proved",
   "theorems": [
    "Edpyt.C128_total",
    "Edpyt.C128_antitone",
    "Edpyt.C128_filling",
    "Edpyt.C128_levels"
   ],
   "note": ""
  },
  {
   "property": "C129",
   "status": "proved",
   "theorems": [
    "Edpyt.C129_gf_exact",
    "Edpyt.C129_gf2_exact",
    "Edpyt.C129_sigma"
   ],
   "note": ""
  },
  {
   "property": "C130",
   "status": "partial",
   "theorems": [
    "Edpyt.C130_multiplets_partial",
    "Edpyt.C130_lowest_spin",
    "Edpyt.C130_refuted"
   ],
   "note": "False with the spin exchange Jx: its matrix elements miss the fermionic sign (ham_non_local.py:127, see C22), which breaks the spin symmetry; C130_refuted gives two sites with Jx = 1. Proved for every spin-independent input without exchange, pair hopping included."
  },
  {
   "property": "C131",
   "status": "proved",
   "theorems": [
    "Edpyt.C131_relabel",
    "Edpyt.C131_spin",
    "Edpyt.C131_particle_hole"
   ],
   "note": ""
  },
  {
   "property": "C132",
   "status": "partial",
   "theorems": [
    "Edpyt.C132_spin_partial",
    "Edpyt.C132_matrix",
    "Edpyt.C132_impurity_partial",
    "Edpyt.C132_refuted"
   ],
   "note": "The matrix statement is proved for every valid input (C132_matrix). For the impurity object it is false for couplings not larger than 1e-7, which the Hamiltonian drops and free(z) keeps (C132_refuted); proved: Im Sigma <= nb*1e-14/Im z always, and <= 0 if every coupling is zero or above 1e-7 (C132_impurity_partial)."
  },
  {
   "property": "C133",
   "status": "partial",
   "theorems": [
    "Edpyt.C133_pass",
    "Edpyt.C133_sample_partial",
    "Edpyt.C133_passes",
    "Edpyt.C133_solve_partial",
    "Edpyt.C133_free_accepts",
    "Edpyt.C133_free_returns",
    "Edpyt.C133_refuted"
   ],
   "note": "No exception, invariant arrays and acceptance at U = 0 are proved in full (C133_pass, C133_passes, C133_free_accepts, C133_free_returns). The sample equals the self-energy minus sigma0 if no fitted coupling is below 1e-7, and up to nb*1e-14/|Im z| always (C133_sample_partial, C133_solve_partial); for poles closer than about 1e-7 the full claim is false (C133_refuted)."
  },
  {
   "property": "C134",
   "status": "proved",
   "theorems": [
    "Edpyt.C134_multi_mean",
    "Edpyt.C134_multi_passes"
   ],
   "note": ""
  },
  {
   "property": "C135",
   "status": "partial",
   "theorems": [
    "Edpyt.C135_refuted_multi",
    "Edpyt.C135_refuted",
    "Edpyt.C135_multi_partial"
   ],
   "note": "False: ded_solve never returns (C135_refuted), ded_solve_multi never with the default sigma0 or a number as interaction (C135_refuted_multi). Proved: with a given sigma0 and an array or dictionary it returns if infinitely many passes are accepted (C135_multi_partial)."
  },
  {
   "property": "C136",
   "status": "partial",
   "theorems": [
    "Edpyt.C136_band",
    "Edpyt.C136_linear",
    "Edpyt.C136_idempotent",
    "Edpyt.C136_mean",
    "Edpyt.C136_smooth",
    "Edpyt.C136_refuted_short",
    "Edpyt.C136_smooth_twice",
    "Edpyt.C136_refuted"
   ],
   "note": "Proved for windows of at least 0.01: C136_smooth, C136_band, C136_linear, C136_idempotent, C136_mean, C136_smooth_twice. False: causality (C136_refuted), shorter windows raise an IndexError (C136_refuted_short)."
  },
  {
   "property": "C137",
   "status": "proved",
   "theorems": [
    "Edpyt.C137_levels",
    "Edpyt.C137_green",
    "Edpyt.C137_occupation",
    "Edpyt.C137_cut"
   ],
   "note": ""
  },
  {
   "property": "C138",
   "status": "proved",
   "theorems": [
    "Edpyt.C138_paramagnetic",
    "Edpyt.C138_local",
    "Edpyt.C138_seed",
    "Edpyt.C138_forget"
   ],
   "note": ""
  },
  {
   "property": "C139",
   "status": "partial",
   "theorems": [
    "Edpyt.C139_residual",
    "Edpyt.C139_broyden_partial",
    "Edpyt.C139_refuted"
   ],
   "note": "Proved: C139_residual for all arguments; the consequence for the criterion 1e-99 with the default alpha = 0 (C139_broyden_partial). False for strong weights, alpha = 100 (C139_refuted)."
  },
  {
   "property": "C140",
   "status": "partial",
   "theorems": [
    "Edpyt.C140_double_partial",
    "Edpyt.C140_refuted",
    "Edpyt.C140_refuted_spin"
   ],
   "note": "The code violates the statement: each element is appended once for either value of the other spin, so both matrices are exactly twice the right ones for every spectrum (C140_double_partial, C140_refuted), and the hole amplitudes of spin 0 are also stored under the label 1 (C140_refuted_spin)."
  },
  {
   "property": "C141",
   "status": "partial",
   "theorems": [
    "Edpyt.C141_density_partial",
    "Edpyt.C141_refuted"
   ],
   "note": "Proved for a state given as a column of shape (d, 1). A vector, the natural argument, raises ValueError in every sector with more than one state (C141_refuted)."
  },
  {
   "property": "C142",
   "status": "proved",
   "theorems": [
    "Edpyt.C142_staggered",
    "Edpyt.C142_moments"
   ],
   "note": ""
  },
  {
   "property": "C143",
   "status": "partial",
   "theorems": [
    "Edpyt.C143_dyson_partial",
    "Edpyt.C143_refuted_one_site"
   ],
   "note": "True for two or more inequivalent sites that come first (C143_dyson_partial); with one inequivalent site the spin-down Green function is uninitialised memory (C143_refuted_one_site)."
  },
  {
   "property": "C144",
   "status": "proved",
   "theorems": [
    "Edpyt.C144_elements",
    "Edpyt.C144_reverse",
    "Edpyt.C144_cutoff"
   ],
   "note": ""
  },
  {
   "property": "C145",
   "status": "proved",
   "theorems": [
    "Edpyt.C145_particle_hole",
    "Edpyt.C145_twins",
    "Edpyt.C145_decoupled",
    "Edpyt.C145_initial"
   ],
   "note": ""
  },
  {
   "property": "C146",
   "status": "proved",
   "theorems": [
    "Edpyt.C146_half_filling",
    "Edpyt.C146_initialize",
    "Edpyt.C146_lattices"
   ],
   "note": ""
  },
  {
   "property": "C147",
   "status": "partial",
   "theorems": [
    "Edpyt.C147_pairs_electron",
    "Edpyt.C147_pairs_hole",
    "Edpyt.C147_approximate_partial",
    "Edpyt.C147_approximate_elastic_partial",
    "Edpyt.C147_approximate_refuted",
    "Edpyt.C147_exact_partial",
    "Edpyt.C147_exact_elastic_partial",
    "Edpyt.C147_exact_refuted"
   ],
   "note": "False as stated: the approximate rate violates it for inelastic transitions through states with one electron less (C147_approximate_refuted), the exact integration for those through states with one electron more (C147_exact_refuted); proved for the other kind and for all elastic transitions outside the windows where the code switches formula."
  },
  {
   "property": "C148",
   "status": "partial",
   "theorems": [
    "Edpyt.C148_partial",
    "Edpyt.C148_refuted",
    "Edpyt.C148_two_levels_refuted"
   ],
   "note": "False as stated: at a bias below 1e-16 the code returns 0 where the limit is not zero (C148_refuted), and for two levels it raises TypeError in the window of the expansion (C148_two_levels_refuted); proved for one level at all other values."
  },
  {
   "property": "C149",
   "status": "partial",
   "theorems": [
    "Edpyt.C149_partial",
    "Edpyt.C149_uniform_partial",
    "Edpyt.C149_empty_refuted",
    "Edpyt.C149_no_energy_refuted",
    "Edpyt.C149_ground_partial",
    "Edpyt.C149_refuted"
   ],
   "note": "The code violates the full statement: intermediate states are judged by unit couplings on all sites (C149_refuted), an empty selection raises StopIteration (C149_empty_refuted), and N without egs raises TypeError (C149_no_energy_refuted). Proved: the exact selection rule, the bound for uniform couplings, totality when the ground state is searched."
  },
  {
   "property": "C150",
   "status": "partial",
   "theorems": [
    "Edpyt.C150_sum_partial",
    "Edpyt.C150_order_partial",
    "Edpyt.C150_quadratic_partial",
    "Edpyt.C150_equal_levels_refuted",
    "Edpyt.C150_cancel_refuted"
   ],
   "note": "False as stated: the interference term misses a factor two, so that paths over states of equal energy do not act as one path (C150_equal_levels_refuted, C150_cancel_refuted). Proved: sum over paths and pairs, order, zero amplitudes and scaling."
  },
  {
   "property": "C151",
   "status": "proved",
   "theorems": [
    "Edpyt.C151_free_energy",
    "Edpyt.C151_levels",
    "Edpyt.C151_site",
    "Edpyt.C151_spin",
    "Edpyt.C151_unique",
    "Edpyt.C151_repulsion"
   ],
   "note": ""
  },
  {
   "property": "C152",
   "status": "proved",
   "theorems": [
    "Edpyt.C152_occupation",
    "Edpyt.C152_hot",
    "Edpyt.C152_green"
   ],
   "note": ""
  },
  {
   "property": "C153",
   "status": "proved",
   "theorems": [
    "Edpyt.C153_stable",
    "Edpyt.C153_cutoff",
    "Edpyt.C153_change_le"
   ],
   "note": ""
  },
  {
   "property": "C154",
   "status": "proved",
   "theorems": [
    "Edpyt.C154_green",
    "Edpyt.C154_cutoff",
    "Edpyt.C154_stable"
   ],
   "note": ""
  },
  {
   "property": "C155",
   "status": "proved",
   "theorems": [
    "Edpyt.C155_elements",
    "Edpyt.C155_sector"
   ],
   "note": ""
  },
  {
   "property": "C156",
   "status": "proved",
   "theorems": [
    "Edpyt.C156_limit",
    "Edpyt.C156_states",
    "Edpyt.C156_blockade"
   ],
   "note": ""
  },
  {
   "property": "C157",
   "status": "partial",
   "theorems": [
    "Edpyt.C157_rates_partial",
    "Edpyt.C157_refuted"
   ],
   "note": "False as stated for degenerate levels, since the rate equation keeps only the populations of the chosen eigenvectors (C157_refuted). Proved: all Hamiltonians whose sectors have no degenerate level."
  },
  {
   "property": "C158",
   "status": "proved",
   "theorems": [
    "Edpyt.C158_levels",
    "Edpyt.C158_ground",
    "Edpyt.C158_bath",
    "Edpyt.C158_entropy"
   ],
   "note": ""
  },
  {
   "property": "C159",
   "status": "partial",
   "theorems": [
    "Edpyt.C159_cooling",
    "Edpyt.C159_free_energy",
    "Edpyt.C159_hot",
    "Edpyt.C159_cold",
    "Edpyt.C159_limits_partial",
    "Edpyt.C159_refuted"
   ],
   "note": "cooling, derivative of the free energy and both limits are proved in full; the claim that the impurity entropy is never negative is false (C159_refuted), what holds of it is C159_limits_partial"
  },
  {
   "property": "C160",
   "status": "proved",
   "theorems": [
    "Edpyt.C160_levels",
    "Edpyt.C160_level",
    "Edpyt.C160_mu",
    "Edpyt.C160_interaction"
   ],
   "note": ""
  },
  {
   "property": "C161",
   "status": "partial",
   "theorems": [
    "Edpyt.C161_refuted",
    "Edpyt.C161_partial",
    "Edpyt.C161_serial"
   ],
   "note": "false for two or more ranks when a residual before the last iteration is within the tolerance (C161_refuted); proved when none is (C161_partial) and for one process (C161_serial)"
  },
  {
   "property": "C162",
   "status": "partial",
   "theorems": [
    "Edpyt.C162_partial",
    "Edpyt.C162_refuted"
   ],
   "note": "false for espaces of sectors of a total number of particles, where sum of an integer raises (C162_refuted); proved for spin sectors (C162_partial)"
  },
  {
   "property": "C163",
   "status": "proved",
   "theorems": [
    "Edpyt.C163_lorentzian"
   ],
   "note": ""
  },
  {
   "property": "C164",
   "status": "proved",
   "theorems": [
    "Edpyt.C164_moments",
    "Edpyt.C164_tail"
   ],
   "note": ""
  },
  {
   "property": "C165",
   "status": "proved",
   "theorems": [
    "Edpyt.C165_upper",
    "Edpyt.C165_exhausted",
    "Edpyt.C165_orthogonal_start"
   ],
   "note": ""
  },
  {
   "property": "C166",
   "status": "proved",
   "theorems": [
    "Edpyt.C166_continuity",
    "Edpyt.C166_conservation",
    "Edpyt.C166_second_law"
   ],
   "note": ""
  },
  {
   "property": "C167",
   "status": "proved",
   "theorems": [
    "Edpyt.C167_levels"
   ],
   "note": ""
  },
  {
   "property": "C168",
   "status": "partial",
   "theorems": [
    "Edpyt.C168_sectors",
    "Edpyt.C168_runs",
    "Edpyt.C168_default_runs",
    "Edpyt.C168_eigenbasis",
    "Edpyt.C168_ignores_hopping",
    "Edpyt.C168_same_spectrum_partial",
    "Edpyt.C168_refuted_symmetry"
   ],
   "note": "independence of the spectrum from the symmetry is false with hopping, spin-dependent levels or spin exchange (C168_refuted_symmetry); everything else is proved"
  },
  {
   "property": "C169",
   "status": "partial",
   "theorems": [
    "Edpyt.C169_refuted_states",
    "Edpyt.C169_levels"
   ],
   "note": "Proved for sums over levels (C169_levels); for single states the claim is false (C169_refuted_states)."
  },
  {
   "property": "C170",
   "status": "partial",
   "theorems": [
    "Edpyt.C170_elements_partial",
    "Edpyt.C170_refuted"
   ],
   "note": "Proved when both N-1 > 0 and N+1 < 2n (C170_elements_partial); next to the empty dot the claim is false (C170_refuted)."
  },
  {
   "property": "C171",
   "status": "partial",
   "theorems": [
    "Edpyt.C171_call",
    "Edpyt.C171_pairs",
    "Edpyt.C171_approximate_elastic_partial",
    "Edpyt.C171_exact_elastic_partial",
    "Edpyt.C171_rates_partial",
    "Edpyt.C171_refuted"
   ],
   "note": "Microreversibility of the elements is proved in general (C171_pairs, C171_call); the ratio of rates for elastic transitions with 'approximate' and 'exact' (C171_rates_partial); for inelastic ones 'approximate' violates it (C171_refuted)."
  },
  {
   "property": "C172",
   "status": "partial",
   "theorems": [
    "Edpyt.C172_rule_partial",
    "Edpyt.C172_error_partial",
    "Edpyt.C172_against_bias",
    "Edpyt.C172_refuted"
   ],
   "note": "Proved: the value is the trapezoidal rule for the integrand of the code (C172_rule_partial) with an explicit error (C172_error_partial). The integrand is not that of the golden rule (C172_against_bias, C172_refuted)."
  },
  {
   "property": "C173",
   "status": "partial",
   "theorems": [
    "Edpyt.C173_phase_space_partial",
    "Edpyt.C173_cutoff",
    "Edpyt.C173_refuted"
   ],
   "note": "Proved for 1e-18 <= beta*|x| and beta*x <= 1000 (C173_phase_space_partial); above the cutoff the error is bounded (C173_cutoff); without bias the claim is false unless beta = 1 (C173_refuted)."
  },
  {
   "property": "C174",
   "status": "proved",
   "theorems": [
    "Edpyt.C174_levels"
   ],
   "note": ""
  },
  {
   "property": "C175",
   "status": "proved",
   "theorems": [
    "Edpyt.C175_gf_exact",
    "Edpyt.C175_gf2_exact",
    "Edpyt.C175_sigma"
   ],
   "note": ""
  },
  {
   "property": "C176",
   "status": "proved",
   "theorems": [
    "Edpyt.C176_gf_exact",
    "Edpyt.C176_gf2_exact",
    "Edpyt.C176_sigma"
   ],
   "note": ""
  },
  {
   "property": "C177",
   "status": "proved",
   "theorems": [
    "Edpyt.C177_gf_lanczos",
    "Edpyt.C177_separate"
   ],
   "note": ""
  },
  {
   "property": "C178",
   "status": "proved",
   "theorems": [
    "Edpyt.C178_gf_exact",
    "Edpyt.C178_gf2_exact",
    "Edpyt.C178_cross",
    "Edpyt.C178_occupation",
    "Edpyt.C178_gf_lanczos"
   ],
   "note": ""
  },
  {
   "property": "C179",
   "status": "proved",
   "theorems": [
    "Edpyt.C179_gf_exact",
    "Edpyt.C179_gf2_exact",
    "Edpyt.C179_occupation",
    "Edpyt.C179_gf_lanczos",
    "Edpyt.C179_impurity",
    "Edpyt.C179_sizes_gf_exact",
    "Edpyt.C179_sizes_gf2_exact",
    "Edpyt.C179_sizes_occupation",
    "Edpyt.C179_sizes_gf_lanczos",
    "Edpyt.C179_sizes_impurity"
   ],
   "note": ""
  },
  {
   "property": "C180",
   "status": "proved",
   "theorems": [
    "Edpyt.C180_gf2_exact",
    "Edpyt.C180_gf_exact",
    "Edpyt.C180_occupation",
    "Edpyt.C180_energies",
    "Edpyt.C180_gf_lanczos"
   ],
   "note": ""
  },
  {
   "property": "C181",
   "status": "proved",
   "theorems": [
    "Edpyt.C181_gf_exact",
    "Edpyt.C181_gf2_exact",
    "Edpyt.C181_occupation",
    "Edpyt.C181_gf_lanczos"
   ],
   "note": ""
  },
  {
   "property": "C182",
   "status": "proved",
   "theorems": [
    "Edpyt.C182_gf2_exact",
    "Edpyt.C182_gf_exact",
    "Edpyt.C182_occupation",
    "Edpyt.C182_gf_lanczos"
   ],
   "note": ""
  },
  {
   "property": "C183",
   "status": "proved",
   "theorems": [
    "Edpyt.C183_local",
    "Edpyt.C183_cluster",
    "Edpyt.C183_same"
   ],
   "note": ""
  },
  {
   "property": "C184",
   "status": "proved",
   "theorems": [
    "Edpyt.C184_gf_lanczos",
    "Edpyt.C184_gf_exact",
    "Edpyt.C184_occupation"
   ],
   "note": ""
  },
  {
   "property": "C185",
   "status": "proved",
   "theorems": [
    "Edpyt.C185_recurrence",
    "Edpyt.C185_gf_lanczos",
    "Edpyt.C185_steps",
    "Edpyt.C185_gf2_lanczos"
   ],
   "note": ""
  },
  {
   "property": "C186",
   "status": "proved",
   "theorems": [
    "Edpyt.C186_pass",
    "Edpyt.C186_sample",
    "Edpyt.C186_passes",
    "Edpyt.C186_independent"
   ],
   "note": ""
  },
  {
   "property": "C187",
   "status": "proved",
   "theorems": [
    "Edpyt.C187_sequential",
    "Edpyt.C187_cotunneling",
    "Edpyt.C187_cotunneling_none",
    "Edpyt.C187_matrix",
    "Edpyt.C187_sqtnl",
    "Edpyt.C187_cotnl"
   ],
   "note": ""
  },
  {
   "property": "C188",
   "status": "proved",
   "theorems": [
    "Edpyt.C188_compression",
    "Edpyt.C188_larger"
   ],
   "note": ""
  },
  {
   "property": "C189",
   "status": "proved",
   "theorems": [
    "Edpyt.C189_descent",
    "Edpyt.C189_conjugate",
    "Edpyt.C189_finite",
    "Edpyt.C189_minimum"
   ],
   "note": ""
  },
  {
   "property": "C190",
   "status": "proved",
   "theorems": [
    "Edpyt.C190_polynomial",
    "Edpyt.C190_chebyshev",
    "Edpyt.C190_rate"
   ],
   "note": ""
  },
  {
   "property": "C191",
   "status": "proved",
   "theorems": [
    "Edpyt.C191_energy",
    "Edpyt.C191_double_occupancy"
   ],
   "note": ""
  },
  {
   "property": "C192",
   "status": "partial",
   "theorems": [
    "Edpyt.C192_verdict_partial",
    "Edpyt.C192_contraction",
    "Edpyt.C192_refuted"
   ],
   "note": "the first sentence is proved for max_iter <= iter (the default: 20 and 60) and is false for max_iter > iter (C192_refuted); the second sentence is proved in full"
  },
  {
   "property": "C193",
   "status": "partial",
   "theorems": [
    "Edpyt.C193_gf2_exact_partial",
    "Edpyt.C193_gf_exact_partial",
    "Edpyt.C193_occupation_partial",
    "Edpyt.C193_levels_partial",
    "Edpyt.C193_energy_partial",
    "Edpyt.C193_gf_lanczos_partial",
    "Edpyt.C193_refuted",
    "Edpyt.C193_rates_partial"
   ],
   "note": "the off-diagonal threshold 1e-7 is absolute: C193_refuted shows that a change of unit can drop the hopping; proved for inputs with no element crossing the threshold (UnitsOk)"
  },
  {
   "property": "C194",
   "status": "partial",
   "theorems": [
    "Edpyt.C194_levels",
    "Edpyt.C194_rates_partial",
    "Edpyt.C194_refuted"
   ],
   "note": "levels are proved in full; invariance of rates and currents holds when the active sectors stay the same and the levels of each sector are simple; C194_refuted shows a potential that changes the active sectors"
  },
  {
   "property": "C195",
   "status": "proved",
   "theorems": [
    "Edpyt.C195_poles",
    "Edpyt.C195_matrix",
    "Edpyt.C195_exact",
    "Edpyt.C195_lanczos",
    "Edpyt.C195_gf2_lanczos",
    "Edpyt.C195_impurity",
    "Edpyt.C195_matsum",
    "Edpyt.C195_nano"
   ],
   "note": ""
  },
  {
   "property": "C196",
   "status": "proved",
   "theorems": [
    "Edpyt.C196_levels",
    "Edpyt.C196_gf2_exact",
    "Edpyt.C196_occupation",
    "Edpyt.C196_bipartite",
    "Edpyt.C196_bipartite_levels",
    "Edpyt.C196_pseudospin"
   ],
   "note": ""
  },
  {
   "property": "C197",
   "status": "proved",
   "theorems": [
    "Edpyt.C197_minmax",
    "Edpyt.C197_stable",
    "Edpyt.C197_cutoff",
    "Edpyt.C197_repulsion",
    "Edpyt.C197_onsite",
    "Edpyt.C197_levels",
    "Edpyt.C197_truncated"
   ],
   "note": ""
  },
  {
   "property": "C198",
   "status": "proved",
   "theorems": [
    "Edpyt.C198_stationary_solution",
    "Edpyt.C198_sequential",
    "Edpyt.C198_empty"
   ],
   "note": ""
  },
  {
   "property": "C199",
   "status": "proved",
   "theorems": [
    "Edpyt.C199_unique",
    "Edpyt.C199_amplitudes",
    "Edpyt.C199_no_magnet",
    "Edpyt.C199_chain",
    "Edpyt.C199_pair"
   ],
   "note": ""
  },
  {
   "property": "C200",
   "status": "proved",
   "theorems": [
    "Edpyt.C200_mean_field",
    "Edpyt.C200_correlation"
   ],
   "note": ""
  },
  {
   "property": "C201",
   "status": "proved",
   "theorems": [
    "Edpyt.C201_unique",
    "Edpyt.C201_pairs",
    "Edpyt.C201_singlet",
    "Edpyt.C201_repulsive"
   ],
   "note": ""
  },
  {
   "property": "C202",
   "status": "proved",
   "theorems": [
    "Edpyt.C202_second_law"
   ],
   "note": ""
  },
  {
   "property": "C203",
   "status": "proved",
   "theorems": [
    "Edpyt.C203_multiplet",
    "Edpyt.C203_above"
   ],
   "note": ""
  },
  {
   "property": "C204",
   "status": "proved",
   "theorems": [
    "Edpyt.C204_binding",
    "Edpyt.C204_ground_paired",
    "Edpyt.C204_ground_half",
    "Edpyt.C204_ground_state"
   ],
   "note": ""
  },
  {
   "property": "C205",
   "status": "proved",
   "theorems": [
    "Edpyt.C205_levels",
    "Edpyt.C205_sites",
    "Edpyt.C205_interaction"
   ],
   "note": ""
  },
  {
   "property": "C206",
   "status": "proved",
   "theorems": [
    "Edpyt.C206_bonds",
    "Edpyt.C206_orbital",
    "Edpyt.C206_rejects"
   ],
   "note": ""
  },
  {
   "property": "C207",
   "status": "partial",
   "theorems": [
    "Edpyt.C207_spins_partial",
    "Edpyt.C207_equal_partial",
    "Edpyt.C207_mpi_partial",
    "Edpyt.C207_refuted_one_site"
   ],
   "note": "Proved for at least two inequivalent sites whose representatives come first (and a number of ranks that divides them). For a lattice of one site `C207_refuted_one_site`: the result has two entries, twice the occupation of each spin, and the second is computed from uninitialised memory."
  },
  {
   "property": "C208",
   "status": "proved",
   "theorems": [
    "Edpyt.C208_levels",
    "Edpyt.C208_level",
    "Edpyt.C208_interaction"
   ],
   "note": ""
  },
  {
   "property": "C209",
   "status": "proved",
   "theorems": [
    "Edpyt.C209_level",
    "Edpyt.C209_lipschitz",
    "Edpyt.C209_cross"
   ],
   "note": ""
  },
  {
   "property": "C210",
   "status": "proved",
   "theorems": [
    "Edpyt.C210_fields",
    "Edpyt.C210_mu"
   ],
   "note": ""
  },
  {
   "property": "C211",
   "status": "proved",
   "theorems": [
    "Edpyt.C211_heat_capacity"
   ],
   "note": ""
  },
  {
   "property": "C212",
   "status": "proved",
   "theorems": [
    "Edpyt.C212_filling",
    "Edpyt.C212_fields",
    "Edpyt.C212_energy"
   ],
   "note": ""
  },
  {
   "property": "C213",
   "status": "proved",
   "theorems": [
    "Edpyt.C213_minmax",
    "Edpyt.C213_repulsion",
    "Edpyt.C213_levels",
    "Edpyt.C213_truncated"
   ],
   "note": ""
  },
  {
   "property": "C214",
   "status": "proved",
   "theorems": [
    "Edpyt.C214_kyfan",
    "Edpyt.C214_configurations",
    "Edpyt.C214_concave"
   ],
   "note": ""
  },
  {
   "property": "C215",
   "status": "proved",
   "theorems": [
    "Edpyt.C215_peierls",
    "Edpyt.C215_hopping"
   ],
   "note": ""
  }
 ]
}