{
 "claims": [
  {
   "property": "C01",
   "status": "proved",
   "theorems": [
    "MPS.Props.C01_mps_to_vector",
    "MPS.Props.C01_empty_rejected"
   ],
   "note": ""
  },
  {
   "property": "C02",
   "status": "proved",
   "theorems": [
    "MPS.Props.C02_scprod",
    "MPS.Props.C02_sense_irrelevant",
    "MPS.Props.C02_size_mismatch"
   ],
   "note": ""
  },
  {
   "property": "C03",
   "status": "proved",
   "theorems": [
    "MPS.Props.C03_norm2",
    "MPS.Props.C03_scprod_self",
    "MPS.Props.C03_conj_symmetric"
   ],
   "note": ""
  },
  {
   "property": "C04",
   "status": "proved",
   "theorems": [
    "MPS.Props.C04_expected",
    "MPS.Props.C04_out_of_range"
   ],
   "note": ""
  },
  {
   "property": "C05",
   "status": "partial",
   "theorems": [
    "MPS.Props.C05_expected2_partial",
    "MPS.Props.C05_expected2_nonneg",
    "MPS.Props.C05_alias_violated"
   ],
   "note": "The code violates the property for two spellings (k and k-L) of the same site: C05_alias_violated proves the negation of the full statement; C05_expected2_partial covers every other pair."
  },
  {
   "property": "C06",
   "status": "proved",
   "theorems": [
    "MPS.Props.C06_expected_vector",
    "MPS.Props.C06_agrees_with_expected",
    "MPS.Props.C06_expected_vector1",
    "MPS.Props.C06_expected_sum",
    "MPS.Props.C06_length_mismatch"
   ],
   "note": ""
  },
  {
   "property": "C07",
   "status": "proved",
   "theorems": [
    "MPS.Props.C07_expected_matrix",
    "MPS.Props.C07_expected_matrix1",
    "MPS.Props.C07_length_mismatch"
   ],
   "note": ""
  },
  {
   "property": "C08",
   "status": "proved",
   "theorems": [
    "MPS.Props.C08_apply_local_operator",
    "MPS.Props.C08_out_of_range"
   ],
   "note": ""
  },
  {
   "property": "C09",
   "status": "partial",
   "theorems": [
    "MPS.Props.C09_density_matrix_partial",
    "MPS.Props.C09_boundary_violated",
    "MPS.Props.C09_complex_violated"
   ],
   "note": "The code violates the property: at the first and last site it reads dimensions of an unassigned tensor, and for complex states it conjugates the wrong leg. Proved for real states and inner sites; both violations proved."
  },
  {
   "property": "C10",
   "status": "proved",
   "theorems": [
    "MPS.Props.C10_product_state",
    "MPS.Props.C10_rejects"
   ],
   "note": ""
  },
  {
   "property": "C11",
   "status": "partial",
   "theorems": [
    "MPS.Props.C11_ghz_partial",
    "MPS.Props.C11_periodic_one_violated"
   ],
   "note": "The code violates the property exactly for a periodic chain of one site (proved); every other case proved."
  },
  {
   "property": "C12",
   "status": "proved",
   "theorems": [
    "MPS.Props.C12_cluster",
    "MPS.Props.C12_short"
   ],
   "note": ""
  },
  {
   "property": "C13",
   "status": "partial",
   "theorems": [
    "MPS.Props.C13_new_dims",
    "MPS.Props.C13_new",
    "MPS.Props.C13_random",
    "MPS.Props.C13_is_periodic",
    "MPS.Props.C13_random_dims_violated",
    "MPS.Props.C13_random_dims_open_rejected"
   ],
   "note": "Every constructor proved; RMPS::random(dims,D,periodic) violates the property (negation proved)."
  },
  {
   "property": "C14",
   "status": "proved",
   "theorems": [
    "MPS.Props.C14_canonical_form_at",
    "MPS.Props.C14_canonical_form"
   ],
   "note": "for every function returning an SVD (existence proved); `lost` is a ghost weight"
  },
  {
   "property": "C15",
   "status": "proved",
   "theorems": [
    "MPS.Props.C15_canonical_form_at",
    "MPS.Props.C15_canonical_form"
   ],
   "note": ""
  },
  {
   "property": "C16",
   "status": "proved",
   "theorems": [
    "MPS.Props.C16_normal_form_at",
    "MPS.Props.C16_normal_form"
   ],
   "note": "open chains; C16_periodic_violated shows that the claim is false of periodic states"
  },
  {
   "property": "C17",
   "status": "proved",
   "theorems": [
    "MPS.Props.C17_store",
    "MPS.Props.C17_both"
   ],
   "note": "the pair is (site,site+1) for sense>0 but (site-1,site) otherwise, against the header comment"
  },
  {
   "property": "C18",
   "status": "proved",
   "theorems": [
    "MPS.Props.C18_truncate",
    "MPS.Props.C18_default",
    "MPS.Props.C18_tight"
   ],
   "note": "exact reals in place of double"
  },
  {
   "property": "C19",
   "status": "proved",
   "theorems": [
    "MPS.Props.C19_truncate",
    "MPS.Props.C19_unlimited"
   ],
   "note": ""
  },
  {
   "property": "C20",
   "status": "proved",
   "theorems": [
    "MPS.Props.C20_new_mpo",
    "MPS.Props.C20_new_mpo_uniform"
   ],
   "note": ""
  },
  {
   "property": "C21",
   "status": "proved",
   "theorems": [
    "MPS.Props.C21_add_local_term",
    "MPS.Props.C21_rejects"
   ],
   "note": ""
  },
  {
   "property": "C22",
   "status": "proved",
   "theorems": [
    "MPS.Props.C22_add_interaction",
    "MPS.Props.C22_rejects_index",
    "MPS.Props.C22_rejects_size"
   ],
   "note": ""
  },
  {
   "property": "C23",
   "status": "proved",
   "theorems": [
    "MPS.Props.C23_add_long_range",
    "MPS.Props.C23_rejects_index"
   ],
   "note": ""
  },
  {
   "property": "C24",
   "status": "proved",
   "theorems": [
    "MPS.Props.C24_jordan_wigner",
    "MPS.Props.C24_hopping",
    "MPS.Props.C24_rejects"
   ],
   "note": "The operators ad, a have one size d, so the chain is uniform (the code has no other case)."
  },
  {
   "property": "C25",
   "status": "partial",
   "theorems": [
    "MPS.Props.C25_product_partial",
    "MPS.Props.C25_identity_ignored",
    "MPS.Props.C25_violated"
   ],
   "note": "The code violates the property: a product of identities is silently dropped (negation proved). Every other list proved."
  },
  {
   "property": "C26",
   "status": "partial",
   "theorems": [
    "MPS.Props.C26_sequence_partial",
    "MPS.Props.C26_order",
    "MPS.Props.C26_violated"
   ],
   "note": "Violated through C25 only; proved for every sequence without an all-identity product."
  },
  {
   "property": "C27",
   "status": "proved",
   "theorems": [
    "MPS.Props.C27_local_hamiltonian",
    "MPS.Props.C27_rejects"
   ],
   "note": ""
  },
  {
   "property": "C28",
   "status": "proved",
   "theorems": [
    "MPS.Props.C28_apply",
    "MPS.Props.C28_length_mismatch"
   ],
   "note": ""
  },
  {
   "property": "C29",
   "status": "proved",
   "theorems": [
    "MPS.Props.C29_mmult",
    "MPS.Props.C29_apply_apply",
    "MPS.Props.C29_length_mismatch"
   ],
   "note": ""
  },
  {
   "property": "C30",
   "status": "proved",
   "theorems": [
    "MPS.Props.C30_mpo_to_matrix",
    "MPS.Props.C30_built"
   ],
   "note": ""
  },
  {
   "property": "C31",
   "status": "partial",
   "theorems": [
    "MPS.Props.C31_adjoint_complex_partial",
    "MPS.Props.C31_real_violated",
    "MPS.Props.C31_real_iff_symmetric"
   ],
   "note": "adjoint(CMPO) proved; adjoint(RMPO) returns its argument, a violation for every non-symmetric operator (proved)."
  },
  {
   "property": "C32",
   "status": "proved",
   "theorems": [
    "MPS.Props.C32_expected",
    "MPS.Props.C32_expected_same",
    "MPS.Props.C32_adjoint"
   ],
   "note": ""
  },
  {
   "property": "C33",
   "status": "partial",
   "theorems": [
    "MPS.Props.C33_cmpo_partial",
    "MPS.Props.C33_rmpo_partial",
    "MPS.Props.C33_missing_local_violated",
    "MPS.Props.C33_rmpo_violated"
   ],
   "note": "CMPO(H,t) proved when every site has a local term and aborts otherwise (C33_missing_local_violated); RMPO(H,t) proved when moreover interaction_depth of the last site is 0, and aborts otherwise (C33_rmpo_violated)"
  },
  {
   "property": "C34",
   "status": "proved",
   "theorems": [
    "MPS.Props.C34_apply_canonical",
    "MPS.Props.C34_size_mismatch"
   ],
   "note": "open chains and O|psi> not zero (or a positive tolerance with truncate=true); C34_zero_violated: with truncate=false a vanishing result gets a bond of dimension 0"
  },
  {
   "property": "C35",
   "status": "proved",
   "theorems": [
    "MPS.Props.C35_fidelity",
    "MPS.Props.C35_symmetric",
    "MPS.Props.C35_bounds",
    "MPS.Props.C35_multiple"
   ],
   "note": "also for periodic operators"
  },
  {
   "property": "C36",
   "status": "proved",
   "theorems": [
    "MPS.Props.C36_simplify"
   ],
   "note": "also for periodic operators"
  },
  {
   "property": "C37",
   "status": "proved",
   "theorems": [
    "MPS.Props.C37_constant_hamiltonian",
    "MPS.Props.C37_independent",
    "MPS.Props.C37_rejects",
    "MPS.Props.C37_witness"
   ],
   "note": ""
  },
  {
   "property": "C38",
   "status": "proved",
   "theorems": [
    "MPS.Props.C38_energy"
   ],
   "note": ""
  },
  {
   "property": "C39",
   "status": "partial",
   "theorems": [
    "MPS.Props.C39_periodic_partial",
    "MPS.Props.C39_periodic_violated",
    "MPS.Props.C39_missing_last_violated",
    "MPS.Props.C75_open",
    "MPS.Props.C75_hamiltonian",
    "MPS.Props.C75_uniform"
   ],
   "note": "open chains proved (C75). Periodic chains violate the property: the bond (last,first) is normalised to Frobenius norm one and its two factors are exchanged (C39_periodic_partial says what is computed, C39_periodic_violated that it is wrong); a chain whose last site has no local term aborts"
  },
  {
   "property": "C40",
   "status": "partial",
   "theorems": [
    "MPS.Props.C73_decompose_operator",
    "MPS.Props.C73_split_interaction",
    "MPS.Props.C40_decompose_violated",
    "MPS.Props.C40_decompose_witness",
    "MPS.Props.C40_split_violated"
   ],
   "note": "false: the operators are normalised to Frobenius norm one (C40_decompose_violated), and split_interaction conjugates the second factors (C40_split_violated); the true part is C73"
  },
  {
   "property": "C41",
   "status": "proved",
   "theorems": [
    "MPS.Props.C41_basis"
   ],
   "note": ""
  },
  {
   "property": "C42",
   "status": "proved",
   "theorems": [
    "MPS.Props.C42_hopping",
    "MPS.Props.C42_hopping_diagonal"
   ],
   "note": "sites in range are a hypothesis: the code does not check them"
  },
  {
   "property": "C43",
   "status": "proved",
   "theorems": [
    "MPS.Props.C43_number_interaction",
    "MPS.Props.C43_hamiltonian"
   ],
   "note": "real and complex versions have the same text; scalars are any commutative ring with decidable equality"
  },
  {
   "property": "C44",
   "status": "partial",
   "theorems": [
    "MPS.Props.C44_apply_partial",
    "MPS.Props.C44_apply_violated_U",
    "MPS.Props.C44_apply_violated_J"
   ],
   "note": "false in general: the product used by eigs is that of the transposed hopping, doubles diagonal interactions and drops U(j,i) when U(i,j)=0; proved for symmetric hopping without diagonal terms"
  },
  {
   "property": "C45",
   "status": "partial",
   "theorems": [
    "MPS.Props.C45_bipartition_partial",
    "MPS.Props.C45_empty_part_partial",
    "MPS.Props.C45_bipartition_violated",
    "MPS.Props.C45_left_part_violated"
   ],
   "note": "proved for right parts of at most 31 sites; for 32 or more the function never terminates; the left part is the last k sites and not, as the header says, the first ones"
  },
  {
   "property": "C46",
   "status": "proved",
   "theorems": [
    "MPS.Props.C46_fock"
   ],
   "note": "exact reals instead of double"
  },
  {
   "property": "C47",
   "status": "proved",
   "theorems": [
    "MPS.Props.C47_coherent_real",
    "MPS.Props.C47_coherent_complex"
   ],
   "note": "exact arithmetic"
  },
  {
   "property": "C48",
   "status": "proved",
   "theorems": [
    "MPS.Props.C48_spin",
    "MPS.Props.C48_spin_rejects",
    "MPS.Props.C48_spin_half"
   ],
   "note": "exact arithmetic"
  },
  {
   "property": "C49",
   "status": "proved",
   "theorems": [
    "MPS.Props.C49_single_site_vector"
   ],
   "note": ""
  },
  {
   "property": "C50",
   "status": "proved",
   "theorems": [
    "MPS.Props.C50_two_site_vector",
    "MPS.Props.C50_norm_sum",
    "MPS.Props.C50_norm"
   ],
   "note": ""
  },
  {
   "property": "C51",
   "status": "proved",
   "theorems": [
    "MPS.Props.C51_single_site_matrix",
    "MPS.Props.C51_two_site_matrix"
   ],
   "note": "pairs with a vanishing operator are skipped by the program; exact comparison with zero"
  },
  {
   "property": "C52",
   "status": "partial",
   "theorems": [
    "MPS.Props.C52_two_site_diag",
    "MPS.Props.C52_single_site_violated"
   ],
   "note": "the two-site diagonal is right (C76); take_single_site_matrix_diag adds the three diagonals (kron2_sum) instead of multiplying them. The semantics of kron2_sum, a function of the external tensor library, is assumed to be the one its name says"
  },
  {
   "property": "C53",
   "status": "proved",
   "theorems": [
    "MPS.Props.C53_sweeper",
    "MPS.Props.C53_sweeper_end"
   ],
   "note": ""
  },
  {
   "property": "C54",
   "status": "partial",
   "theorems": [
    "MPS.Props.C54_loop_partial",
    "MPS.Props.C54_zero_sweeps_violated",
    "MPS.Props.C54_energy_violated"
   ],
   "note": "the loop is proved for whatever the sweeps compute; the last clause is false: with no sweep allowed 1e28 is returned, and in the two-site algorithm the energy is that of the state before truncation. The true statements about the energies are C77, C78"
  },
  {
   "property": "C55",
   "status": "partial",
   "theorems": [
    "MPS.Props.C55_single_partial",
    "MPS.Props.C55_two_partial",
    "MPS.Props.C55_norm_violated",
    "MPS.Props.C55_complex_violated",
    "MPS.Props.C55_operator_partial",
    "MPS.Props.C55_operator_example"
   ],
   "note": "the overlap is multiplied by 1-n, n the norm of the effective vector; false unless n=1, and for complex states the conjugate vector is projected out; C55_operator_partial: if the projectors are orthonormal, the operators given to the solver are the effective Hamiltonian between two projections"
  },
  {
   "property": "C56",
   "status": "partial",
   "theorems": [
    "MPS.Props.C56_aborts_violated",
    "MPS.Props.C56_pair_violated"
   ],
   "note": "false: the arguments of set_canonical_2_sites are shifted by one and the tensor has not got four indices"
  },
  {
   "property": "C57",
   "status": "partial",
   "theorems": [
    "MPS.Props.C57_simplify_partial",
    "MPS.Props.C57_sense_violated",
    "MPS.Props.C57_witness"
   ],
   "note": "false: when the loop ends because of the stopping rule without normalize, sense is not flipped"
  },
  {
   "property": "C58",
   "status": "proved",
   "theorems": [
    "MPS.Props.C58_gates",
    "MPS.Props.C58_generators_sum",
    "MPS.Props.C58_partition",
    "MPS.Props.C58_bad_parity"
   ],
   "note": "expm is any function"
  },
  {
   "property": "C59",
   "status": "proved",
   "theorems": [
    "MPS.Props.C59_apply",
    "MPS.Props.C59_apply_normalize"
   ],
   "note": "exact when no singular value is discarded; `hidden` is the ghost weight dropped by set_canonical, which the program does not report"
  },
  {
   "property": "C60",
   "status": "proved",
   "theorems": [
    "MPS.Props.C60_layers",
    "MPS.Props.C60_trotter23",
    "MPS.Props.C60_rotation",
    "MPS.Props.C60_forest_ruth",
    "MPS.Props.C60_palindromes",
    "MPS.Props.C60_forest_ruth_order"
   ],
   "note": "C60_forest_ruth_violated: with complex time steps Forest-Ruth takes the absolute value of negative imaginary durations, so that imaginary-time evolution is wrong"
  },
  {
   "property": "C61",
   "status": "proved",
   "theorems": [
    "MPS.Props.C61_two_sites",
    "MPS.Props.C61_norm"
   ],
   "note": ""
  },
  {
   "property": "C62",
   "status": "proved",
   "theorems": [
    "MPS.Props.C62_string_order",
    "MPS.Props.C62_expected2",
    "MPS.Props.C62_expected",
    "MPS.Props.C62_swap",
    "MPS.Props.C62_translation",
    "MPS.Props.C62_same_site",
    "MPS.Props.C62_example"
   ],
   "note": "canonical_form() is a parameter; default method (canonical)"
  },
  {
   "property": "C63",
   "status": "partial",
   "theorems": [
    "MPS.Props.C63_evolve_partial",
    "MPS.Props.C63_violated"
   ],
   "note": "false: ceil(nsteps/deltan)*deltan steps are run; the part with deltan dividing nsteps is C90"
  },
  {
   "property": "C64",
   "status": "partial",
   "theorems": [
    "MPS.Props.C64_ghz",
    "MPS.Props.C64_aklt",
    "MPS.Props.C64_aklt_string_order",
    "MPS.Props.C64_cluster_violated"
   ],
   "note": "false for infinite_cluster_state: A(0,1,0) is set instead of A(1,1,0), so that the stabilizer ZXZ has the value 1/8. GHZ and AKLT are C86"
  },
  {
   "property": "C65",
   "status": "partial",
   "theorems": [
    "MPS.Props.C65_violated",
    "MPS.Props.bell_canonical",
    "MPS.Props.C91_entropy"
   ],
   "note": "false: entropy(site) ignores site, and for a state that is not canonical returns the sum over both bonds, so that entropy() counts everything twice; true at odd sites of canonical states (C91)"
  },
  {
   "property": "C66",
   "status": "partial",
   "theorems": [
    "MPS.Props.C66_hamiltonian_rows_partial",
    "MPS.Props.C66_hamiltonian_rows_violated"
   ],
   "note": "false when all coefficients vanish: the result has no rows"
  },
  {
   "property": "C67",
   "status": "partial",
   "theorems": [
    "MPS.Props.C67_entropy_partial",
    "MPS.Props.C67_entropy_violated"
   ],
   "note": "proved for strictly positive weights; a vanishing weight gives NaN"
  },
  {
   "property": "C68",
   "status": "proved",
   "theorems": [
    "MPS.Props.C68_largest_bond"
   ],
   "note": ""
  },
  {
   "property": "C69",
   "status": "proved",
   "theorems": [
    "MPS.Props.C69_norm"
   ],
   "note": "expm: any function with the properties GoodExpm, which the matrix exponential has (exists_goodExpm)"
  },
  {
   "property": "C70",
   "status": "proved",
   "theorems": [
    "MPS.Props.C59_trotter2",
    "MPS.Props.C59_trotter3",
    "MPS.Props.C59_forest_ruth",
    "MPS.Props.C59_abort"
   ],
   "note": ""
  },
  {
   "property": "C71",
   "status": "proved",
   "theorems": [
    "MPS.Props.C61_centre"
   ],
   "note": ""
  },
  {
   "property": "C72",
   "status": "proved",
   "theorems": [
    "MPS.Props.C72_energy_mpo",
    "MPS.Props.ham_witness"
   ],
   "note": ""
  },
  {
   "property": "C73",
   "status": "proved",
   "theorems": [
    "MPS.Props.C73_decompose_operator",
    "MPS.Props.C73_split_interaction",
    "MPS.Props.C73_split_conjugated"
   ],
   "note": "svd: any function with the properties GoodSvd, NonnegSvd; one exists (exists_goodSvd_nonneg)"
  },
  {
   "property": "C74",
   "status": "proved",
   "theorems": [
    "MPS.Props.C74_ti",
    "MPS.Props.C74_ti_rejects",
    "MPS.Props.C74_constant"
   ],
   "note": ""
  },
  {
   "property": "C75",
   "status": "proved",
   "theorems": [
    "MPS.Props.C75_open",
    "MPS.Props.C75_hamiltonian",
    "MPS.Props.C75_uniform",
    "MPS.Props.C75_witness"
   ],
   "note": ""
  },
  {
   "property": "C76",
   "status": "proved",
   "theorems": [
    "MPS.Props.C52_two_site_diag"
   ],
   "note": ""
  },
  {
   "property": "C77",
   "status": "proved",
   "theorems": [
    "MPS.Props.C77_single_site",
    "MPS.Props.C77_returns",
    "MPS.Props.C77_example"
   ],
   "note": "eigs: any solver that finds the lowest eigenvector when it reports success (GoodEigs; exists_goodEigs); energies is a ghost list"
  },
  {
   "property": "C78",
   "status": "proved",
   "theorems": [
    "MPS.Props.C78_two_site",
    "MPS.Props.C78_returns"
   ],
   "note": "lost is a ghost weight; C54_energy_violated is a concrete run"
  },
  {
   "property": "C79",
   "status": "partial",
   "theorems": [
    "MPS.Props.C79_ignored_violated",
    "MPS.Props.C79_ignored_example",
    "MPS.Props.C79_two_site_violated"
   ],
   "note": "false: the single-site algorithm (Dmax=0) ignores the constraint, and the two-site one only restricts the diagonal of the constraint. What the two-site algorithm does guarantee is C116"
  },
  {
   "property": "C80",
   "status": "proved",
   "theorems": [
    "MPS.Props.C80_simplify_obc",
    "MPS.Props.C80_bonds",
    "MPS.Props.C80_any_form"
   ],
   "note": "open chains; lost and errs are ghost values"
  },
  {
   "property": "C81",
   "status": "proved",
   "theorems": [
    "MPS.Props.C81_apply_and_simplify"
   ],
   "note": ""
  },
  {
   "property": "C82",
   "status": "proved",
   "theorems": [
    "MPS.Props.C82_trotter2",
    "MPS.Props.C82_trotter3",
    "MPS.Props.C82_forest_ruth"
   ],
   "note": "ForestRuth with each-layer ends with two layers called without Dmax and is left out"
  },
  {
   "property": "C83",
   "status": "proved",
   "theorems": [
    "MPS.Props.C83_expected12",
    "MPS.Props.C83_string_order_many"
   ],
   "note": ""
  },
  {
   "property": "C84",
   "status": "proved",
   "theorems": [
    "MPS.Props.C84_expected12",
    "MPS.Props.C84_string_order_many"
   ],
   "note": ""
  },
  {
   "property": "C85",
   "status": "partial",
   "theorems": [
    "MPS.Props.C85_string_order_partial",
    "MPS.Props.C85_expected_partial",
    "MPS.Props.C85_many_partial",
    "MPS.Props.C85_expected12_partial",
    "MPS.Props.C85_violated",
    "MPS.Props.C85_example"
   ],
   "note": "false: do_string_order ends its window inside of a cell, where a canonical state need not be right-canonical; proved for states canonical at both bonds"
  },
  {
   "property": "C86",
   "status": "proved",
   "theorems": [
    "MPS.Props.C64_ghz",
    "MPS.Props.C64_aklt",
    "MPS.Props.C64_aklt_string_order"
   ],
   "note": ""
  },
  {
   "property": "C87",
   "status": "proved",
   "theorems": [
    "MPS.Props.C87_canonical_form",
    "MPS.Props.C87_expected12",
    "MPS.Props.C87_example",
    "MPS.Props.exists_goodEigSym"
   ],
   "note": "what is assumed of eigs and eig_sym is EigOk and GoodEigSym"
  },
  {
   "property": "C88",
   "status": "proved",
   "theorems": [
    "MPS.Props.C88_apply_operator",
    "MPS.Props.C88_apply_anywhere",
    "MPS.Props.C88_unequal_violated",
    "MPS.Props.C88_example",
    "MPS.Props.C88_example_odd"
   ],
   "note": "local dimensions equal; C88_unequal_violated: otherwise the assertion of split_tensor fails; the lossless clause is the one proved for any state and site"
  },
  {
   "property": "C89",
   "status": "proved",
   "theorems": [
    "MPS.Props.C89_product",
    "MPS.Props.C89_string_order",
    "MPS.Props.C89_expected",
    "MPS.Props.C89_example"
   ],
   "note": ""
  },
  {
   "property": "C90",
   "status": "proved",
   "theorems": [
    "MPS.Props.C90_evolve_itime",
    "MPS.Props.C90_fractions",
    "MPS.Props.C90_example"
   ],
   "note": "svd, eig_sym: GoodSvd, GoodEigSym; nothing is assumed of eigs; expm returns a matrix of the size of H12"
  },
  {
   "property": "C91",
   "status": "proved",
   "theorems": [
    "MPS.Props.C91_entropy",
    "MPS.Props.C91_schmidt",
    "MPS.Props.bell_canonical"
   ],
   "note": ""
  },
  {
   "property": "C92",
   "status": "proved",
   "theorems": [
    "MPS.Props.C92_energy",
    "MPS.Props.C92_example"
   ],
   "note": ""
  },
  {
   "property": "C93",
   "status": "proved",
   "theorems": [
    "MPS.Props.C93_simplify",
    "MPS.Props.C93_returns",
    "MPS.Props.C93_no_sweeps",
    "MPS.Props.C93_rejects",
    "MPS.Props.C93_witness"
   ],
   "note": "svd: GoodSvd"
  },
  {
   "property": "C94",
   "status": "partial",
   "theorems": [
    "MPS.Props.C94_normalize_partial",
    "MPS.Props.C94_normalize_violated"
   ],
   "note": "false when the loop ends because there are no sweeps left"
  },
  {
   "property": "C95",
   "status": "proved",
   "theorems": [
    "MPS.Props.C95_simplify_many",
    "MPS.Props.C95_rejects_one",
    "MPS.Props.C95_witness"
   ],
   "note": "svd: GoodSvd"
  },
  {
   "property": "C96",
   "status": "proved",
   "theorems": [
    "MPS.Props.C96_simplify_many",
    "MPS.Props.C96_returns",
    "MPS.Props.C96_rejects",
    "MPS.Props.C96_witness"
   ],
   "note": "svd: GoodSvd; with normalize=true it returns unless the state found vanishes (division by zero)"
  },
  {
   "property": "C97",
   "status": "proved",
   "theorems": [
    "MPS.Props.C97_single_site",
    "MPS.Props.C97_returns",
    "MPS.Props.C97_rejects",
    "MPS.Props.energy_ham"
   ],
   "note": "svd: GoodSvd, eigs: GoodEigs; Q_values empty, neigenvalues = 1"
  },
  {
   "property": "C98",
   "status": "partial",
   "theorems": [
    "MPS.Props.C98_real_partial",
    "MPS.Props.C98_violated",
    "MPS.Props.hamElt_real"
   ],
   "note": "false if the factors of the interactions are not real (sigma_y x sigma_y): the real part of each factor is taken; true if all factors are real"
  },
  {
   "property": "C99",
   "status": "partial",
   "theorems": [
    "MPS.Props.C99_ignored",
    "MPS.Props.C99_violated"
   ],
   "note": "false: single-site DMRG ignores the states given to orthogonal_to"
  },
  {
   "property": "C100",
   "status": "proved",
   "theorems": [
    "MPS.Props.C100_solve",
    "MPS.Props.C100_returns",
    "MPS.Props.C100_rejects",
    "MPS.Props.lossless_exact",
    "MPS.Props.exists_goodSolve"
   ],
   "note": "svd: GoodSvd, solve_with_svd: GoodSolve; the canonical forms of Q and H Q drop nothing (lossless_exact: true if MPS_TRUNCATION_TOLERANCE >= 1)"
  },
  {
   "property": "C101",
   "status": "proved",
   "theorems": [
    "MPS.Props.C101_solve",
    "MPS.Props.C101_returns",
    "MPS.Props.exists_goodCgs"
   ],
   "note": "svd: GoodSvd, cgs: SizedCgs (DescentCgs, IdealCgs for the clauses that need them); the canonical forms of Q and H Q drop nothing"
  },
  {
   "property": "C102",
   "status": "partial",
   "theorems": [
    "MPS.Props.C102_any_operator_partial",
    "MPS.Props.C102_returns",
    "MPS.Props.C102_violated"
   ],
   "note": "false: the linear form is made from H Q instead of adjoint(H) Q; proved: what is solved is the least-squares problem for q' with H+ q' = H Q"
  },
  {
   "property": "C103",
   "status": "proved",
   "theorems": [
    "MPS.Props.C103_one_step",
    "MPS.Props.C103_rejects"
   ],
   "note": "svd: GoodSvd, solve_with_svd: GoodSolveM, expm: ExactExpm, eig: GoodEig; MPS_TRUNCATION_TOLERANCE > 0; the sum of errors*|coef|^2 added to the value returned is a parameter"
  },
  {
   "property": "C104",
   "status": "proved",
   "theorems": [
    "MPS.Props.C104_conserved",
    "MPS.Props.lossless_basis"
   ],
   "note": "for |psi| = 1, when the canonical forms drop nothing (lossless_basis: true if MPS_TRUNCATION_TOLERANCE >= 1)"
  },
  {
   "property": "C105",
   "status": "proved",
   "theorems": [
    "MPS.Props.C105_exact",
    "MPS.Props.C105_krylov",
    "MPS.Props.C105_eigenvector",
    "MPS.Props.C105_order",
    "MPS.Props.C105_orthonormal"
   ],
   "note": "for |psi| = 1, when the canonical forms drop nothing; out.basis.exact = no error in the calls of simplify_obc that make the basis"
  },
  {
   "property": "C106",
   "status": "proved",
   "theorems": [
    "MPS.Props.C106_ground",
    "MPS.Props.C106_exact"
   ],
   "note": "for |psi| = 1, when the canonical forms drop nothing; the basis must be linearly independent (it is if exact)"
  },
  {
   "property": "C107",
   "status": "partial",
   "theorems": [
    "MPS.Props.C107_phase",
    "MPS.Props.C107_violated"
   ],
   "note": "false: the first element of the effective Hamiltonian is computed with psi before it is normalised; the true part (|psi| = 1) is C105"
  },
  {
   "property": "C108",
   "status": "proved",
   "theorems": [
    "MPS.Props.C108_cast",
    "MPS.Props.C108_scprod",
    "MPS.Props.C108_expected",
    "MPS.Props.C108_out_of_range",
    "MPS.Props.C108_sum",
    "MPS.Props.C108_expected2",
    "MPS.Props.C108_real"
   ],
   "note": "two operators: for indices counted from the start of the chain (see C05 for the alias of negative indices)"
  },
  {
   "property": "C109",
   "status": "proved",
   "theorems": [
    "MPS.Props.C109_string_order",
    "MPS.Props.C109_same_site",
    "MPS.Props.C109_swap",
    "MPS.Props.C109_expected2",
    "MPS.Props.C109_expected",
    "MPS.Props.C109_expected12",
    "MPS.Props.C109_energy",
    "MPS.Props.C109_limit",
    "MPS.Props.C109_product"
   ],
   "note": "exact arithmetic: the factors dividing by norm2 cancel; the state needs no canonical form"
  },
  {
   "property": "C110",
   "status": "proved",
   "theorems": [
    "MPS.Props.C110_string_order",
    "MPS.Props.C110_expected2",
    "MPS.Props.C110_expected12",
    "MPS.Props.C110_energy",
    "MPS.Props.C110_swap"
   ],
   "note": "eig_power: GoodPower, i.e. the vector returned is a non-zero multiple of the map applied some number of times to the initial vector; C109_limit says what the rings approximate"
  },
  {
   "property": "C111",
   "status": "partial",
   "theorems": [
    "MPS.Props.C111_partial",
    "MPS.Props.C111_expected_violated",
    "MPS.Props.C111_string_violated",
    "MPS.Props.C111_expected2_violated"
   ],
   "note": "false: prop_matrix gets the address of an empty operator and folds it, so one-site expected values and most string orders abort; the true part is C110"
  },
  {
   "property": "C112",
   "status": "proved",
   "theorems": [
    "MPS.Props.C112_trotter2",
    "MPS.Props.C112_trotter3",
    "MPS.Props.C112_forest_ruth",
    "MPS.Props.C112_exists"
   ],
   "note": "exact matrix exponential, strategies TRUNCATE_EACH_UNITARY and DO_NOT_TRUNCATE, steps in which nothing is dropped; the exact evolution is any solution of the differential equation"
  },
  {
   "property": "C113",
   "status": "proved",
   "theorems": [
    "MPS.Props.C113_trotter2",
    "MPS.Props.C113_trotter3",
    "MPS.Props.C113_hermitian",
    "MPS.Props.C113_forest_ruth"
   ],
   "note": "as C112, any number of steps"
  },
  {
   "property": "C114",
   "status": "proved",
   "theorems": [
    "MPS.Props.C114_trotter2",
    "MPS.Props.C114_trotter3",
    "MPS.Props.C114_forest_ruth"
   ],
   "note": "the weight dropped by set_canonical is a ghost variable of the model; without normalisation"
  },
  {
   "property": "C115",
   "status": "proved",
   "theorems": [
    "MPS.Props.C115_trotter",
    "MPS.Props.C115_forest_ruth"
   ],
   "note": "as C114, any number of steps; exact matrix exponential"
  },
  {
   "property": "C116",
   "status": "proved",
   "theorems": [
    "MPS.Props.C116_two_site",
    "MPS.Props.C116_value",
    "MPS.Props.C116_two_sites",
    "MPS.Props.C116_no_state",
    "MPS.Props.C116_returns",
    "MPS.Props.C116_example"
   ],
   "note": "without states to be orthogonal to; the SVD and the eigenvalue solver are assumed to meet their contracts"
  },
  {
   "property": "C117",
   "status": "partial",
   "theorems": [
    "MPS.Props.C117_canonical_form_partial",
    "MPS.Props.C117_second_sweep_partial",
    "MPS.Props.C117_skewed_violated",
    "MPS.Props.C117_violated",
    "MPS.Props.C117_example"
   ],
   "note": "true for states which are canonical with respect to the end where the sweep begins, e.g. in the second of two opposite sweeps; false in general: the tensors whose singular values are dropped are not surrounded by isometries, and for every tolerance in (0,1) any fraction of the state may be lost; only the bound is false, the clauses on the projection hold for every state (C120)"
  },
  {
   "property": "C118",
   "status": "proved",
   "theorems": [
    "MPS.Props.C118_fixed",
    "MPS.Props.C118_idempotent",
    "MPS.Props.C118_normal_form",
    "MPS.Props.C118_example"
   ],
   "note": "the SVD is assumed to meet its contract only"
  },
  {
   "property": "C119",
   "status": "partial",
   "theorems": [
    "MPS.Props.C119_each_unitary_partial",
    "MPS.Props.C119_do_not_truncate_partial",
    "MPS.Props.C119_violated",
    "MPS.Props.C119_default_example"
   ],
   "note": "true with MPS_TRUNCATE_EACH_UNITARY for the three solvers; with MPS_DO_NOT_TRUNCATE for Trotter3Solver and ForestRuthSolver the state is the canonical form of the one without the option, normalised. False for the default strategy MPS_TRUNCATE_EACH_LAYER, for MPS_TRUNCATE_GROUPS and for Trotter2Solver without truncation: on two qubits the option has no effect at all"
  },
  {
   "property": "C120",
   "status": "proved",
   "theorems": [
    "MPS.Props.C120_canonical_form_at",
    "MPS.Props.C120_canonical_form"
   ],
   "note": "the SVD is assumed to meet its contract only"
  },
  {
   "property": "C121",
   "status": "proved",
   "theorems": [
    "MPS.Props.C121_layer",
    "MPS.Props.C121_step",
    "MPS.Props.C121_no_simplification"
   ],
   "note": "ForestRuthSolver is not covered: its last two layers pass Dmax = 0 and are always simplified; what simplify_obc does is the subject of C80 and C81"
  },
  {
   "property": "C122",
   "status": "proved",
   "theorems": [
    "MPS.Props.C122_runs",
    "MPS.Props.C122_exist"
   ],
   "note": "for runs in which no layer needs simplify_obc; such runs exist for all initial states and lengths (C122_exist)"
  },
  {
   "property": "C123",
   "status": "proved",
   "theorems": [
    "MPS.Props.C123_eigenvalues",
    "MPS.Props.C123_state",
    "MPS.Props.C123_returns"
   ],
   "note": "Dmax = 0; the eigenvalue solver is assumed to meet its contract GoodManyEigs (satisfiable: exists_goodManyEigs)"
  },
  {
   "property": "C124",
   "status": "partial",
   "theorems": [
    "MPS.Props.C124_single_site_violated",
    "MPS.Props.C124_two_site_violated",
    "MPS.Props.C124_vectors_partial"
   ],
   "note": "false: with Dmax = 0 the vector Qr_ is left empty and Qr_.at(n) throws; with Dmax > 0 the two-site step fails as in C56. Proved: the vectors of the conserved quantities do not stop the algorithm otherwise"
  },
  {
   "property": "C125",
   "status": "proved",
   "theorems": [
    "MPS.Props.C125_energies",
    "MPS.Props.C125_canonical"
   ],
   "note": "Dmax = 0; M exists for every Hamiltonian (exists_energyBound)"
  },
  {
   "property": "C126",
   "status": "proved",
   "theorems": [
    "MPS.Props.C126_projection",
    "MPS.Props.C126_nearly_optimal",
    "MPS.Props.C126_bond_schmidt",
    "MPS.Props.C126_best_mps"
   ],
   "note": "without normalisation; the SVD returns sorted singular values (second part)"
  },
  {
   "property": "C127",
   "status": "proved",
   "theorems": [
    "MPS.Props.C127_best",
    "MPS.Props.C127_tolerance"
   ],
   "note": "before the re-canonicalisation of the neighbour (canonicalize_both = false), whose effect is C17_both; the SVD returns sorted singular values"
  },
  {
   "property": "C128",
   "status": "proved",
   "theorems": [
    "MPS.Props.C128_energy",
    "MPS.Props.C128_best"
   ],
   "note": "without constraint; M exists for every MPO (exists_opBound); the eigenvalue solver and the SVD are assumed to meet their contracts"
  },
  {
   "property": "C129",
   "status": "proved",
   "theorems": [
    "MPS.Props.C129_reversal",
    "MPS.Props.C129_two_qubits",
    "MPS.Props.C129_truncated",
    "MPS.Props.C129_trotter2_not_reversible"
   ],
   "note": "with the exact matrix exponential; without normalisation; strategies EACH_UNITARY and DO_NOT_TRUNCATE (first part), EACH_UNITARY (last part)"
  },
  {
   "property": "C130",
   "status": "proved",
   "theorems": [
    "MPS.Props.C130_step",
    "MPS.Props.C130_forest_ruth"
   ],
   "note": "with simplify_obc as modelled in C80; ForestRuthSolver on two sites or more"
  },
  {
   "property": "C131",
   "status": "proved",
   "theorems": [
    "MPS.Props.C131_runs",
    "MPS.Props.C131_forest_ruth",
    "MPS.Props.C131_exist"
   ],
   "note": "with the exact matrix exponential; runs of any length exist from every state in canonical form (C131_exist)"
  },
  {
   "property": "C132",
   "status": "proved",
   "theorems": [
    "MPS.Props.C132_bonds",
    "MPS.Props.C132_ready",
    "MPS.Props.C132_exist"
   ],
   "note": "for a positive MPS_DEFAULT_TOLERANCE truncation threshold; C132_ready links canonical_form to the hypotheses of C130 and C131"
  },
  {
   "property": "C133",
   "status": "proved",
   "theorems": [
    "MPS.Props.C133_expected",
    "MPS.Props.C133_forest_ruth",
    "MPS.Props.C133_bounded"
   ],
   "note": "combines C131 with C04, C05, C38; the clause about the energy is for Hamiltonians whose interaction_left/right multiply to interaction (what C37 proves for ConstantHamiltonian)"
  },
  {
   "property": "C134",
   "status": "proved",
   "theorems": [
    "MPS.Props.C134_descends"
   ],
   "note": "with the exact matrix exponential; strategies TRUNCATE_EACH_UNITARY and DO_NOT_TRUNCATE, runs in which no singular values are dropped; Hamiltonians whose interaction_left/right multiply to interaction (what C37 proves for ConstantHamiltonian)"
  },
  {
   "property": "C135",
   "status": "proved",
   "theorems": [
    "MPS.Props.C135_ground_state"
   ],
   "note": "hypotheses as in C134"
  },
  {
   "property": "C136",
   "status": "partial",
   "theorems": [
    "MPS.Props.C136_layers_partial",
    "MPS.Props.C136_violated",
    "MPS.Props.C136_descends_violated",
    "MPS.Props.C136_ground_state_violated"
   ],
   "note": "violated: the unitaries take the absolute value of the imaginary part of their time step, so the layers with a negative coefficient are applied in the wrong direction: a Hermitian two-qubit Hamiltonian for which the energy rises in every step, away from the ground state"
  },
  {
   "property": "C137",
   "status": "proved",
   "theorems": [
    "MPS.Props.C137_truncated"
   ],
   "note": "Dmax may differ from step to step; normalize requires Dmax times the larger tolerance below one, as in C119 (otherwise canonical_form could drop everything, C117); SVD with sorted singular values; the existence of such runs is truncating_run"
  },
  {
   "property": "C138",
   "status": "proved",
   "theorems": [
    "MPS.Props.C138_step",
    "MPS.Props.C138_run"
   ],
   "note": "SVD with sorted singular values, tolerances below one; complex_run shows that the runs exist"
  },
  {
   "property": "C139",
   "status": "partial",
   "theorems": [
    "MPS.Props.C139_first_layer_partial",
    "MPS.Props.C139_lopsided_violated",
    "MPS.Props.C139_violated"
   ],
   "note": "false for the code: with MPS_DO_NOT_TRUNCATE Trotter2Solver passes Dmax=0 and the tolerance MPS_TRUNCATE_EPSILON, singular values are dropped relative to the tensor of the pair while the state is not canonical, and the value returned is 0; the bound holds for the first layer from a state in canonical form; when nothing is dropped the step is exact (C70)"
  },
  {
   "property": "C140",
   "status": "proved",
   "theorems": [
    "MPS.Props.C140_ground_state",
    "MPS.Props.C140_normalize",
    "MPS.Props.C140_keeping"
   ],
   "note": "C140_ground_state is without normalize; C140_normalize, with or without normalize, measures the errors relative to the squared norm of each state; C140_keeping (both values of normalize) includes the existence of the runs from every initial state; SVD with sorted singular values, tolerances below one"
  },
  {
   "property": "C141",
   "status": "partial",
   "theorems": [
    "MPS.Props.C141_two_site",
    "MPS.Props.C141_converging_partial",
    "MPS.Props.C141_lost_violated",
    "MPS.Props.C141_masked_violated",
    "MPS.Props.C141_constrained_violated",
    "MPS.Props.C141_constrained_example",
    "MPS.Props.C141_lost_constrained_violated",
    "MPS.Props.C141_lost_constrained_example",
    "MPS.Props.C141_lost_example",
    "MPS.Props.C141_masked_example",
    "MPS.Props.C141_two_site_example"
   ],
   "note": "proved without constraint for Dmax > 0 whatever the solver does, and for all algorithms when the solver converges in all its calls; violated by the code otherwise (the flag converged is overwritten by the call for the gap); the numbers gap and constrained_gap only reach a copy of the options and cannot be read by the caller"
  }
 ]
}