{"id": "C01", "title": "mps_to_vector lists the amplitudes", "statement": "mps_to_vector(psi) is the vector whose entry at position s0 + d0*(s1 + d1*(s2+...)) is the amplitude tr(A0[s0] A1[s1] ... A_{L-1}[s_{L-1}]); first site is the fastest index; its length is the product of the physical dimensions.", "quantifier": "every MPS (real or complex, open or periodic) with matching bonds, every physical configuration", "why_tests_cant": "Tests use a handful of random chains of small length, dimension and bond size; the claim is about every chain length, every per-site dimension, every bond dimension and every tensor content.", "anchors": ["src/mps/rmps_to_vector.cc", "src/mps/cmps_to_vector.cc", "include/mps/mps.h: mps_to_vector"]}
{"id": "C02", "title": "scprod is the Hilbert-space scalar product, in both sweep senses", "statement": "scprod(bra, ket, sense) equals the sum over all physical configurations of conj(amplitude of bra) * amplitude of ket, and the value does not depend on sense.", "quantifier": "all pairs of MPS with equal physical dimensions (any, possibly different, bond dimensions; open or periodic), both senses", "why_tests_cant": "Tests use a handful of random chains of small length, dimension and bond size; the claim is about every chain length, every per-site dimension, every bond dimension and every tensor content.", "anchors": ["src/mps/mps_expected1.cc: scalar_product", "src/mps/mps_prop_matrix.cc", "include/mps/mps.h: scprod"]}
{"id": "C03", "title": "norm2 is the Hilbert-space norm", "statement": "norm2(psi) is the square root of the sum of |amplitude|^2; scprod(a,b) is the conjugate of scprod(b,a); scprod(psi,psi) is real and non-negative.", "quantifier": "every MPS; every pair of MPS", "why_tests_cant": "Tests use a handful of random chains of small length, dimension and bond size; the claim is about every chain length, every per-site dimension, every bond dimension and every tensor content.", "anchors": ["src/mps/mps_expected1.cc: state_norm", "include/mps/mps.h: norm2"]}
{"id": "C04", "title": "Single-site expectation values", "statement": "expected(psi, op, k) is <psi|op_k|psi> (not normalised) for each site; a negative k counts from the end; an out of range k is rejected.", "quantifier": "every MPS, every operator matrix, every site index, positive or negative", "why_tests_cant": "Tests use a handful of random chains of small length, dimension and bond size; the claim is about every chain length, every per-site dimension, every bond dimension and every tensor content.", "anchors": ["src/mps/mps_expected1.cc: single_site_expected", "src/mps/rmps.cc: normal_index"]}
{"id": "C05", "title": "Two-site correlators", "statement": "expected(psi, op1, k1, op2, k2) is <psi|op1_{k1} op2_{k2}|psi> for every pair of sites in any order; when both indices denote the same site it is <psi|(op1*op2)_k|psi>; indices may be negative.", "quantifier": "every MPS, pair of operators and pair of site indices, including negative aliases of the same site", "why_tests_cant": "Tests use a handful of random chains of small length, dimension and bond size; the claim is about every chain length, every per-site dimension, every bond dimension and every tensor content. The aliasing case needs mixed positive/negative indices, never tested.", "anchors": ["src/mps/mps_expected2.cc", "include/mps/mps.h: expected"]}
{"id": "C06", "title": "Vectors of expectation values", "statement": "expected_vector(psi, op)[k] and expected_vector(psi, ops)[k] equal expected(psi, op_k, k) for every k, and expected(psi, op) summed over sites is their sum.", "quantifier": "every MPS, every operator or list of operators", "why_tests_cant": "Tests use a handful of random chains of small length, dimension and bond size; the claim is about every chain length, every per-site dimension, every bond dimension and every tensor content.", "anchors": ["src/mps/mps_expected1_all.cc", "src/mps/mps_expected1.cc"]}
{"id": "C07", "title": "Matrix of all two-site correlators", "statement": "expected(psi, op1, op2)(i,j) equals <psi|op1_i op2_j|psi> for all i,j (op1*op2 on the diagonal); the vector-of-operators version uses op1[i] and op2[j].", "quantifier": "every MPS and operator lists, all pairs (i,j)", "why_tests_cant": "Tests use a handful of random chains of small length, dimension and bond size; the claim is about every chain length, every per-site dimension, every bond dimension and every tensor content.", "anchors": ["src/mps/mps_expected2_all.cc: all_correlations_fast"]}
{"id": "C08", "title": "apply_local_operator acts on exactly one site", "statement": "the amplitudes of apply_local_operator(psi, op, k) are sum_t op(s_k,t) * amplitude(s with s_k:=t): the operator acts on site k and on nothing else.", "quantifier": "every MPS, operator and site", "why_tests_cant": "Tests use a handful of random chains of small length, dimension and bond size; the claim is about every chain length, every per-site dimension, every bond dimension and every tensor content.", "anchors": ["src/mps/apply_local_operator_d.cc", "src/mps/apply_local_operator_z.cc"]}
{"id": "C09", "title": "density_matrix is the reduced density matrix", "statement": "density_matrix(psi,k)(i,j) = sum over the other sites of amplitude(s_k=i) * conj(amplitude(s_k=j)), for every site and for real and complex states.", "quantifier": "every MPS, every site (boundary sites included), real and complex", "why_tests_cant": "Only a few random states are used; boundary sites and genuinely complex states are different code paths.", "anchors": ["src/mps/mps_dty_matrix.cc: density_matrix"]}
{"id": "C10", "title": "product_state amplitudes factorise", "statement": "the amplitude of product_state(n, v) at s is the product of v(s_k).", "quantifier": "every length and local state", "why_tests_cant": "Tests use a handful of random chains of small length, dimension and bond size; the claim is about every chain length, every per-site dimension, every bond dimension and every tensor content.", "anchors": ["src/mps/rmps_product_state.cc", "src/mps/cmps_product_state.cc"]}
{"id": "C11", "title": "ghz_state is the GHZ state", "statement": "ghz_state(n, periodic) has amplitude 1/sqrt(2) at 00..0 and at 11..1 and zero elsewhere, for every n>=1, for open and periodic boundary conditions.", "quantifier": "every length n>=1, both boundary conditions, every configuration", "why_tests_cant": "Finite lengths only can be tested; the length-1 periodic case is a separate branch.", "anchors": ["src/mps/rmps_ghz_state.cc"]}
{"id": "C12", "title": "cluster_state is the cluster state", "statement": "cluster_state(n) for n>=3 has amplitude 2^(-n/2) * prod_k (-1)^(s_k s_{k+1}). With n = 1 or 2 it is the GHZ state (|0...0> + |1...1>)/sqrt(2).", "quantifier": "every n>=3 and every configuration", "why_tests_cant": "Number of configurations is 2^n.", "anchors": ["src/mps/rmps_cluster_state.cc"]}
{"id": "C13", "title": "Shapes of freshly created states", "statement": "RMPS/CMPS(n,d,D,periodic) and RMPS(dims,D,periodic) have at site k a tensor of size (left,d_k,right), left/right = D except for 1 at the two open ends, so that neighbouring bonds match; RMPS::random(dims,D,periodic) has exactly the requested physical dimensions.", "quantifier": "every length, dimension list, bond dimension and boundary condition", "why_tests_cant": "Tests use a handful of random chains of small length, dimension and bond size; the claim is about every chain length, every per-site dimension, every bond dimension and every tensor content.", "anchors": ["src/mps/mps_presize.h", "src/mps/rmps.cc", "src/mps/rmps_random.cc", "src/mps/cmps_random.cc"]}
{"id": "C14", "title": "Canonical forms do not change the state", "statement": "canonical_form(psi,sense), canonical_form_at(psi,site) represent the same vector as psi (all amplitudes equal) when no singular value is discarded.", "quantifier": "every open-boundary MPS, every site, both senses", "why_tests_cant": "Tests use a handful of random chains of small length, dimension and bond size; the claim is about every chain length, every per-site dimension, every bond dimension and every tensor content.", "anchors": ["src/mps/mps_canonical.cc", "src/tools/split_tensor.cc"]}
{"id": "C15", "title": "Canonical forms are canonical", "statement": "in canonical_form_at(psi,k) every tensor to the left of k is a left isometry (sum_{a,i} conj(A(a,i,b))A(a,i,b') = delta) and every tensor to the right of k is a right isometry; canonical_form(psi,-1) is centred on site 0 and canonical_form(psi,+1) on the last site.", "quantifier": "every open-boundary MPS, every site, both senses", "why_tests_cant": "Tests use a handful of random chains of small length, dimension and bond size; the claim is about every chain length, every per-site dimension, every bond dimension and every tensor content.", "anchors": ["src/mps/mps_canonical.cc", "src/tools/split_tensor.cc"]}
{"id": "C16", "title": "normal_form returns a normalised multiple of the state", "statement": "for every open-boundary psi, normal_form(psi,sense) and normal_form_at(psi,k) are the canonical form divided by its norm and have norm 1 whenever that norm is not zero; if no singular value is discarded the amplitudes are those of psi divided by norm2(psi).", "quantifier": "every open-boundary MPS with non-zero norm", "why_tests_cant": "Tests use a handful of random chains of small length, dimension and bond size; the claim is about every chain length, every per-site dimension, every bond dimension and every tensor content.", "anchors": ["src/mps/mps_canonical.cc"]}
{"id": "C17", "title": "set_canonical_2_sites stores the two-site tensor", "statement": "after set_canonical_2_sites(P,Pij,site,sense,Dmax,tol) the product of the two stored tensors is Pij up to the discarded singular values, all other tensors are untouched (before re-canonicalisation), and with no discarded weight the state is exactly the one with the pair replaced by Pij.", "quantifier": "every MPS, pair, sense, Dmax", "why_tests_cant": "Tests use a handful of random chains of small length, dimension and bond size; the claim is about every chain length, every per-site dimension, every bond dimension and every tensor content.", "anchors": ["src/mps/mps_canonical2.cc"]}
{"id": "C18", "title": "where_to_truncate never discards more weight than tolerated nor keeps more than max_dim", "statement": "where_to_truncate(s,tol,max_dim) returns a size n<=length, n<=max_dim when max_dim>0; unless max_dim binds, the discarded weight sum_{j>=n} s_j^2 is at most max(tol, machine epsilon)*sum s_j^2; with tolerance 0 only exact trailing zeros are dropped; with tolerance>=1 only max_dim acts; it never returns 0 for a non-zero vector.", "quantifier": "every vector of singular values, tolerance and max_dim", "why_tests_cant": "The decision depends on every real vector and tolerance.", "anchors": ["src/tools/truncate.cc: where_to_truncate"]}
{"id": "C19", "title": "truncate produces the promised shapes", "statement": "truncate(P,Q,Dmax,...) yields an MPS with the same physical dimensions, matching bonds and every bond at most Dmax, returns true exactly when some bond shrank, and leaves the state unchanged when it returns false.", "quantifier": "every MPS, every Dmax, both boundary conditions", "why_tests_cant": "Tests use a handful of random chains of small length, dimension and bond size; the claim is about every chain length, every per-site dimension, every bond dimension and every tensor content.", "anchors": ["src/tools/truncate_mps.cc"]}
{"id": "C20", "title": "A new MPO is the zero operator", "statement": "RMPO(n,d)/CMPO(dims) represents the zero operator for every n>=2, and n<2 is rejected.", "quantifier": "every list of >=2 dimensions, all matrix elements", "why_tests_cant": "Tests use a handful of random chains of small length, dimension and bond size; the claim is about every chain length, every per-site dimension, every bond dimension and every tensor content.", "anchors": ["src/mpo/rmpo.cc: clear", "src/mpo/cmpo.cc: clear"]}
{"id": "C21", "title": "add_local_term adds exactly one local term", "statement": "after add_local_term(&mpo,h,k) every matrix element of the operator has increased by that of h on site k tensored with identities; nothing else changes; wrong sizes or index are rejected.", "quantifier": "every MPO reached through the building functions, every site and operator", "why_tests_cant": "Tests use a handful of random chains of small length, dimension and bond size; the claim is about every chain length, every per-site dimension, every bond dimension and every tensor content.", "anchors": ["src/mpo/mpo_add_term.cc: do_add_local_term"]}
{"id": "C22", "title": "add_interaction adds exactly one nearest-neighbour term", "statement": "after add_interaction(&mpo,Hi,i,Hj) the operator has increased by Hi on site i times Hj on site i+1; invalid i is rejected.", "quantifier": "every MPO reached through the building functions, every pair", "why_tests_cant": "Tests use a handful of random chains of small length, dimension and bond size; the claim is about every chain length, every per-site dimension, every bond dimension and every tensor content.", "anchors": ["src/mpo/mpo_add_term.cc: do_add_interaction"]}
{"id": "C23", "title": "Long range add_interaction", "statement": "after add_interaction(&mpo,H,i,sign) the operator has increased by sum_{j!=i} H[i] on site i times H[j] on site j, with sign (or identity) on all sites strictly in between.", "quantifier": "every MPO reached through the building functions, every list H, every i, every sign operator or none, any pattern of zero operators in H", "why_tests_cant": "Tests use a handful of random chains of small length, dimension and bond size; the claim is about every chain length, every per-site dimension, every bond dimension and every tensor content.", "anchors": ["src/mpo/mpo_add_long_range_term.cc"]}
{"id": "C24", "title": "add_hopping_matrix and add_jordan_wigner_matrix", "statement": "after add_hopping_matrix(&mpo,J,ad,a) the operator has increased by sum_{i!=j} J(i,j) ad_i a_j, with sign strings in between for the Jordan-Wigner version.", "quantifier": "every MPO, matrix J and operators", "why_tests_cant": "Tests use a handful of random chains of small length, dimension and bond size; the claim is about every chain length, every per-site dimension, every bond dimension and every tensor content.", "anchors": ["src/mpo/mpo_add_hopping_matrix.cc"]}
{"id": "C25", "title": "add_product_term adds the product", "statement": "after add_product_term(&mpo,H) the operator has increased by H[0] x H[1] x ... x H[L-1].", "quantifier": "every MPO and every list of operators, including lists containing identities", "why_tests_cant": "Tests use random operators, never identities, so the identity-trimming paths are unexplored.", "anchors": ["src/mpo/mpo_add_product_term.cc"]}
{"id": "C26", "title": "Any sequence of additions sums up", "statement": "starting from a new MPO, after any sequence of add_local_term / add_interaction / long range / product calls, the operator is the sum of the terms added, in whatever order and interleaving.", "quantifier": "every finite sequence of building operations with valid arguments", "why_tests_cant": "Histories are unbounded; the bond structure depends on the whole history.", "anchors": ["src/mpo/mpo_add_term.cc", "src/mpo/mpo_add_long_range_term.cc", "src/mpo/mpo_add_product_term.cc"]}
{"id": "C27", "title": "local_Hamiltonian_mpo is the sum of the local terms", "statement": "local_Hamiltonian_mpo(H) is the operator sum_k H[k] on site k.", "quantifier": "every list of >=2 square operators of any dimensions", "why_tests_cant": "Tests use a handful of random chains of small length, dimension and bond size; the claim is about every chain length, every per-site dimension, every bond dimension and every tensor content.", "anchors": ["src/mpo/mpo_local_Hamiltonian.cc"]}
{"id": "C28", "title": "apply(MPO,MPS) is the operator acting on the state", "statement": "the amplitudes of apply(O,psi) at s are sum_t O(s,t) psi(t), for open and periodic tensors.", "quantifier": "every MPO and MPS with matching physical dimensions", "why_tests_cant": "Tests use a handful of random chains of small length, dimension and bond size; the claim is about every chain length, every per-site dimension, every bond dimension and every tensor content.", "anchors": ["src/mpo/mpo_apply.cc"]}
{"id": "C29", "title": "mmult multiplies operators", "statement": "mmult(A,B) is the operator product A*B: matrix elements sum_t A(s,t) B(t,u).", "quantifier": "every pair of MPOs with matching dimensions", "why_tests_cant": "Tests use a handful of random chains of small length, dimension and bond size; the claim is about every chain length, every per-site dimension, every bond dimension and every tensor content.", "anchors": ["src/mpo/mpo_mmult.cc"]}
{"id": "C30", "title": "mpo_to_matrix lists the matrix elements", "statement": "mpo_to_matrix(O) is the matrix whose entry at (flat(s), flat(t)), with the first site fastest, is the matrix element <s|O|t>.", "quantifier": "every open-boundary MPO (every MPO the library builds)", "why_tests_cant": "Tests use a handful of random chains of small length, dimension and bond size; the claim is about every chain length, every per-site dimension, every bond dimension and every tensor content.", "anchors": ["src/mpo/mpo_to_matrix.cc"]}
{"id": "C31", "title": "adjoint is the adjoint", "statement": "adjoint(O) has matrix elements conj(O(t,s)), for complex and for real MPOs (transpose).", "quantifier": "every MPO, real or complex", "why_tests_cant": "A unit test with symmetric real operators cannot see a missing transpose.", "anchors": ["src/mpo/mpo_adjoint_z.cc", "src/mpo/mpo_adjoint_d.cc"]}
{"id": "C32", "title": "Expectation value of an MPO", "statement": "expected(bra,O,ket) = sum_{s,t} conj(bra(s)) O(s,t) ket(t), and expected(psi,O) = expected(psi,O,psi).", "quantifier": "every bra, ket, MPO with matching dimensions", "why_tests_cant": "Tests use a handful of random chains of small length, dimension and bond size; the claim is about every chain length, every per-site dimension, every bond dimension and every tensor content.", "anchors": ["src/mpo/mpo_expected_d.cc", "src/mpo/mpo_expected_z.cc"]}
{"id": "C33", "title": "MPO built from a Hamiltonian", "statement": "CMPO(H,t) and RMPO(H,t) represent sum_k local_term(k) + sum_{k<L-1} sum_n interaction_left(k,n) interaction_right(k,n).", "quantifier": "every open-boundary Hamiltonian of >=2 sites", "why_tests_cant": "Tests use a handful of random chains of small length, dimension and bond size; the claim is about every chain length, every per-site dimension, every bond dimension and every tensor content.", "anchors": ["src/mpo/cmpo_from_hamiltonian.cc", "src/mpo/rmpo_from_hamiltonian.cc"]}
{"id": "C34", "title": "apply_canonical agrees with apply", "statement": "if O|psi> is not zero, apply_canonical(O,psi,sense,truncate=false) represents the same state as apply(O,psi) and is in canonical form in the given sense; with truncate=true the same holds if no singular value is discarded.", "quantifier": "every open-boundary MPO/MPS, both senses", "why_tests_cant": "Tests use a handful of random chains of small length, dimension and bond size; the claim is about every chain length, every per-site dimension, every bond dimension and every tensor content.", "anchors": ["src/mpo/mpo_apply_canonical.cc"]}
{"id": "C35", "title": "fidelity between operators", "statement": "if no singular value is discarded, fidelity(A,B) = |tr(A^+ B)| / sqrt(tr(A^+A) tr(B^+B)); it is symmetric, between 0 and 1, and 1 when B is a non-zero multiple of A.", "quantifier": "every pair of MPOs with non-zero norms", "why_tests_cant": "Tests use a handful of random chains of small length, dimension and bond size; the claim is about every chain length, every per-site dimension, every bond dimension and every tensor content.", "anchors": ["src/mpo/mpo_fidelity_d.cc", "src/mpo/mpo_fidelity_z.cc", "src/mpo/mpo_to_mps_d.cc", "src/mpo/mpo_to_mps_z.cc"]}
{"id": "C36", "title": "simplify(MPO) preserves the operator", "statement": "simplify(O,sense) has the same matrix elements as O when no singular value is discarded.", "quantifier": "every open-boundary MPO", "why_tests_cant": "Tests use a handful of random chains of small length, dimension and bond size; the claim is about every chain length, every per-site dimension, every bond dimension and every tensor content.", "anchors": ["src/mpo/mpo_simplify.cc", "src/mpo/mpo_to_mps_d.cc", "src/mpo/mpo_to_mps_z.cc"]}
{"id": "C37", "title": "ConstantHamiltonian remembers what was set", "statement": "after any sequence of set_local_term / set_interaction / add_interaction calls, local_term(k) is the last value set, and interaction(k) is the sum of H1 x H2 over the terms added since the last set_interaction on k; interaction_depth/left/right enumerate exactly these; calls on one bond do not affect another.", "quantifier": "every finite sequence of valid calls", "why_tests_cant": "Histories are unbounded.", "anchors": ["src/hamiltonian/hamiltonian_constant.cc"]}
{"id": "C38", "title": "Energy of a Hamiltonian over an MPS", "statement": "expected(psi,H,t) = sum_k <local_term(k)> + sum over bonds of <sum_n left_n right_n>, bonds including (L-1,0) exactly when the Hamiltonian is periodic.", "quantifier": "every MPS and Hamiltonian of equal size", "why_tests_cant": "Tests use a handful of random chains of small length, dimension and bond size; the claim is about every chain length, every per-site dimension, every bond dimension and every tensor content.", "anchors": ["src/hamiltonian/hamiltonian_expected.cc"]}
{"id": "C39", "title": "sparse_hamiltonian / sparse_1d_hamiltonian", "statement": "the sparse matrix is the sum over sites of 1 x h_k x 1 plus the sum over bonds of 1 x h_{k,k+1} x 1 in the basis with first site fastest, plus the (last,first) bond for periodic chains.", "quantifier": "every list of local and interaction terms", "why_tests_cant": "Tests use a handful of random chains of small length, dimension and bond size; the claim is about every chain length, every per-site dimension, every bond dimension and every tensor content.", "anchors": ["src/quantum/sparse_1d_hamiltonian_many.cc", "src/hamiltonian/sparse_hamiltonian.cc"]}
{"id": "C40", "title": "Decomposition of a two-site operator", "statement": "decompose_operator(H12,&H1,&H2) and split_interaction(H12,&v1,&v2) return operators whose sum of tensor products is H12; hence TIHamiltonian's interaction_left/right multiply up to interaction(k).", "quantifier": "every two-site operator", "why_tests_cant": "Tests compare only normalised or small operators.", "anchors": ["src/quantum/decompose_operator.cc", "src/hamiltonian/split_interaction.cc", "src/tools/limited_svd_d.cc", "src/hamiltonian/hamiltonian_ti.cc"]}
{"id": "C41", "title": "Lattice enumerates exactly the configurations with N particles", "statement": "the basis of Lattice(sites,N) lists, strictly ascending and without omission, the bit words below 2^sites with exactly N ones; dimension() is binomial(sites,N).", "quantifier": "every sites<=34 and N<=sites", "why_tests_cant": "2^34 words.", "anchors": ["src/quantum/lattice.cc: states_with_n_particles, count_bits"]}
{"id": "C42", "title": "Lattice hopping operator", "statement": "hopping_operator(to,from,kind) maps basis state |w> to the state with the particle moved, with sign (-1)^(number of particles strictly between) for fermions and +1 for hard-core bosons, and to zero when from is empty or to is occupied; for to=from it is the number operator.", "quantifier": "every lattice, every pair of sites, both kinds, every basis state", "why_tests_cant": "Exponential number of configurations.", "anchors": ["src/quantum/lattice.cc: hopping_inner, hopping_operator"]}
{"id": "C43", "title": "Lattice number, interaction and Hamiltonian operators", "statement": "number_operator(k) and interaction_operator(i,j) are diagonal with n_k and n_i n_j; Hamiltonian(J,U,mu) is sum_{ij} (J(i,j) - mu delta_ij) a+_i a_j + sum_{ij} U(i,j) n_i n_j.", "quantifier": "every lattice, J, U, mu, kind", "why_tests_cant": "Exponential number of configurations; degenerate all-zero coefficient case.", "anchors": ["src/quantum/lattice.cc: Hamiltonian"]}
{"id": "C44", "title": "Lattice eigs diagonalises the same operator as Hamiltonian", "statement": "the matrix-vector product used by eigs(J,U,...) equals Hamiltonian(J,U,0) applied to the vector.", "quantifier": "every lattice, J, U, kind, vector", "why_tests_cant": "Tests use symmetric J and restricted U.", "anchors": ["src/quantum/lattice_apply.cc"]}
{"id": "C45", "title": "Lattice bipartition maps every configuration", "statement": "bipartition(k,...) terminates and gives for every basis state w the position of (low k bits, high bits) in the left x right product basis; the map is injective. A cut with an empty part is rejected.", "quantifier": "every lattice and every cut", "why_tests_cant": "Large lattices cannot be enumerated.", "anchors": ["src/quantum/lattice_bipartition.cc"]}
{"id": "C46", "title": "Fock operators", "statement": "number_operator(nmax), destruction_operator(nmax), creation_operator(nmax) are (nmax+1)-dimensional with a|n>=sqrt(n)|n-1>, a+ the adjoint of a, a+a=number, and [a,a+]=1 except in the last level.", "quantifier": "every nmax>=0", "why_tests_cant": "All truncations.", "anchors": ["src/quantum/fock.cc"]}
{"id": "C47", "title": "Coherent state", "statement": "coherent_state(alpha,nmax)(n) is exp(-|alpha|^2/2) alpha^n/sqrt(n!), for real and complex alpha.", "quantifier": "every alpha, nmax", "why_tests_cant": "All amplitudes.", "anchors": ["src/quantum/fock.cc"]}
{"id": "C48", "title": "Spin operators satisfy the angular momentum algebra", "statement": "spin_operators(s): [sx,sy]=i sz and cyclic, sx^2+sy^2+sz^2=s(s+1), all Hermitian, for every allowed s; for s=1/2 they are half the Pauli matrices.", "quantifier": "every allowed half-integer s", "why_tests_cant": "Matrix identities at every size.", "anchors": ["src/quantum/spin.cc"]}
{"id": "C49", "title": "LinearForm agrees with its definition after any propagation history", "statement": "after any sequence of propagate_left/right calls, the vector at the current site, contracted with any tensor X placed there, equals the scalar product of the superposition sum_i c_i bra_i (so that the weights enter conjugated) with the ket whose sites carry the last propagated tensors and X at the current site; here() is the site reached.", "quantifier": "every set of bras and weights, every start, every history of propagations", "why_tests_cant": "Histories are unbounded.", "anchors": ["src/dmrg/lform.cc"]}
{"id": "C50", "title": "LinearForm two-site vector and norm", "statement": "two_site_vector contracts like single_site_vector but over a pair of neighbours, and norm2() is the norm of the weighted superposition.", "quantifier": "every form, both senses", "why_tests_cant": "Tests use a handful of random chains of small length, dimension and bond size; the claim is about every chain length, every per-site dimension, every bond dimension and every tensor content.", "anchors": ["src/dmrg/lform.cc: two_site_vector, norm2"]}
{"id": "C51", "title": "QuadraticForm agrees with its definition after any propagation history", "statement": "after any sequence of propagations, single_site_matrix at the current site is the matrix of X,Y -> <psi_Y|O|psi_X> (an empty tensor standing for zero), and apply_one_site_matrix multiplies by it; two_site_matrix(sense) and apply_two_site_matrix are the same for products of two tensors at the current site and the neighbour in the given sense.", "quantifier": "every MPO, every history", "why_tests_cant": "Histories are unbounded.", "anchors": ["src/dmrg/qform.cc"]}
{"id": "C52", "title": "QuadraticForm diagonals", "statement": "take_single_site_matrix_diag() and take_two_site_matrix_diag() return the diagonals of the respective matrices.", "quantifier": "every form", "why_tests_cant": "Tests use a handful of random chains of small length, dimension and bond size; the claim is about every chain length, every per-site dimension, every bond dimension and every tensor content.", "anchors": ["src/dmrg/qform.cc: take_single_site_matrix_diag, take_two_site_matrix_diag"]}
{"id": "C53", "title": "Sweeper visits every site", "statement": "a Sweeper over sites k0..kN started with some sense visits each site of the range exactly once per sweep, reports termination at the end and, after flip(), visits them in the opposite order.", "quantifier": "every range and sense, every number of sweeps", "why_tests_cant": "Unbounded number of flips.", "anchors": ["src/tools/sweeper.cc"]}
{"id": "C54", "title": "minimize stops and reports honestly", "statement": "minimize runs at most opt.sweeps sweeps; it reports convergence only when the last two energies differ by less than the tolerance; the energy returned belongs to the state returned.", "quantifier": "every sequence of energies produced by the sweeps", "why_tests_cant": "All energy histories.", "anchors": ["src/dmrg/minimizer.cc"]}
{"id": "C55", "title": "Excited-state search projects out the given states", "statement": "minimize(...,other) works in the subspace orthogonal to the states in other: the vectors it iterates on have zero overlap with each of them.", "quantifier": "every list of states of any norm, real or complex", "why_tests_cant": "All inputs; unnormalised states not tested.", "anchors": ["src/dmrg/minimizer.cc: orthogonal_projectors, orthogonalize"]}
{"id": "C56", "title": "Two-site DMRG stores its tensors where they belong", "statement": "the two-site DMRG step optimising the pair (k,k+1) replaces exactly those two tensors using the requested tolerance and bond dimension.", "quantifier": "every chain, every pair, both directions", "why_tests_cant": "The wrong argument order compiles.", "anchors": ["src/dmrg/dmrg.cc: minimize_two_sites", "src/mps/mps_canonical2.cc"]}
{"id": "C57", "title": "simplify's result and bookkeeping", "statement": "simplify(P,Q,&sense,...) returns 0 exactly when P is proportional to Q (with normalisation: overlap 1), performs at most sweeps sweeps and leaves sense describing the canonical form of the result independently of the normalize flag.", "quantifier": "every sequence of sweep results", "why_tests_cant": "All histories.", "anchors": ["src/mps/mps_simplify.cc", "src/mps/mps_simplify_many.cc", "src/dmrg/simplify_obc.cc"]}
{"id": "C58", "title": "Trotter splitting covers the Hamiltonian exactly once", "statement": "the generators of the even and odd layers add up to the open-chain Hamiltonian: each bond term appears in exactly one layer with weight 1 and each local term has total weight 1.", "quantifier": "every length (even and odd), every Hamiltonian", "why_tests_cant": "Tests use a handful of random chains of small length, dimension and bond size; the claim is about every chain length, every per-site dimension, every bond dimension and every tensor content.", "anchors": ["src/evolve/trotter_unitary.cc: Unitary::Unitary"]}
{"id": "C59", "title": "Trotter layer application touches each site exactly once", "statement": "Unitary::apply applies each two-site gate of its layer exactly once on its pair and each one-site gate exactly once, in either direction, and flips the direction.", "quantifier": "every length, parity and direction", "why_tests_cant": "Tests use a handful of random chains of small length, dimension and bond size; the claim is about every chain length, every per-site dimension, every bond dimension and every tensor content.", "anchors": ["src/evolve/trotter_unitary.cc: Unitary::apply"]}
{"id": "C60", "title": "Time step coefficients", "statement": "in each solver, the durations of the even layers add up to the time step dt and so do those of the odd layers; Trotter3 and Forest-Ruth are palindromic; Forest-Ruth satisfies the third-order cancellation condition.", "quantifier": "every complex time step for the first and second order solvers, every real one for Forest-Ruth, every strategy", "why_tests_cant": "An algebraic identity over all dt.", "anchors": ["src/evolve/solver_trotter2.cc", "src/evolve/solver_trotter3.cc", "src/evolve/solver_trotter4.cc"]}
{"id": "C61", "title": "Application of a two-site gate", "statement": "apply_onto_two_sites replaces the product of two neighbouring tensors by gate*product up to discarded singular values, reports the sum of the squares of the discarded values as error, and applying a unitary with no truncation preserves the norm.", "quantifier": "every MPS, gate and pair", "why_tests_cant": "Tests use a handful of random chains of small length, dimension and bond size; the claim is about every chain length, every per-site dimension, every bond dimension and every tensor content.", "anchors": ["src/evolve/trotter_unitary.cc: apply_onto_two_sites"]}
{"id": "C62", "title": "String order / correlator index reduction is translation invariant", "statement": "expected(psi,op1,i,op2,j) and string_order(psi,opi,i,opm,opj,j) depend on the sites only through parity of i and the distance; for i!=j they are symmetric under swapping (op,i) and (op,j), for i=j the operators are multiplied; the value is the expected value, in a finite window that contains both sites, of the product with opi on i, opj on j, opm (the identity for expected) on every site in between and the identity elsewhere.", "quantifier": "every pair of integer sites", "why_tests_cant": "Unbounded distances.", "anchors": ["src/iTEBD/expected/expected.cc", "src/iTEBD/slow_expected.hpp", "src/iTEBD/canonical_expected.hpp"]}
{"id": "C63", "title": "evolve_itime performs nsteps steps", "statement": "evolve_itime(psi,H,dt,nsteps,...,deltan,method) evolves for nsteps elementary steps and reports after each group of deltan.", "quantifier": "every nsteps, deltan and method", "why_tests_cant": "All (nsteps,deltan) combinations.", "anchors": ["src/iTEBD/itebd_itime.hpp"]}
{"id": "C64", "title": "Infinite reference states", "statement": "infinite_ghz_state, infinite_cluster_state and infinite_aklt_state: every finite window of the infinite product gives the advertised state's amplitudes/stabilizers.", "quantifier": "every window length", "why_tests_cant": "Unbounded windows.", "anchors": ["src/iTEBD/itebd_ghz_state.cc", "src/iTEBD/itebd_cluster_state.cc", "src/iTEBD/itebd_aklt_state.cc"]}
{"id": "C65", "title": "iTEBD entropy and Schmidt values", "statement": "entropy(site) is the entropy of the Schmidt values at that site's bond, entropy() the sum over both bonds.", "quantifier": "every state, site", "why_tests_cant": "All states.", "anchors": ["src/iTEBD/itebd.hpp: entropy", "src/tools/entropy.cc"]}
{"id": "C66", "title": "Lattice Hamiltonian always has the size of the Hilbert space", "statement": "Hamiltonian(J,U,mu,kind) is a matrix with dimension() rows and columns for every choice of the coefficients, also when all of them vanish.", "quantifier": "every lattice, J, U, mu, kind", "why_tests_cant": "Tests use non-zero coefficients.", "anchors": ["src/quantum/lattice.cc: Hamiltonian, maybe_add"]}
{"id": "C67", "title": "Entropy of a vector of weights", "statement": "entropy(l) of a vector of non-negative weights with positive sum is the Shannon entropy -sum p_i log p_i of the normalised distribution (0 log 0 = 0); it is between 0 and log of the number of weights.", "quantifier": "every non-negative vector with positive sum", "why_tests_cant": "Tests use a few distributions without vanishing weights.", "anchors": ["src/tools/entropy.cc: entropy"]}
{"id": "C68", "title": "largest_bond_dimension", "statement": "largest_bond_dimension(psi) is the maximum of the left bond dimensions of the tensors.", "quantifier": "every MPS", "why_tests_cant": "Tests use a handful of random chains of small length, dimension and bond size; the claim is about every chain length, every per-site dimension, every bond dimension and every tensor content.", "anchors": ["src/tools/bond_dimension_d.cc: largest_bond_dimension"]}
{"id": "C69", "title": "Real-time evolution preserves the norm", "statement": "one_step of the Trotter solvers with a Hermitian Hamiltonian and a real time step leaves norm2 of the state unchanged if no singular value is discarded (strategies TRUNCATE_EACH_UNITARY and DO_NOT_TRUNCATE, normalisation off).", "quantifier": "every Hermitian Hamiltonian, state, time step and length", "why_tests_cant": "Tests use a handful of random chains of small length, dimension and bond size; the claim is about every chain length, every per-site dimension, every bond dimension and every tensor content.", "anchors": ["src/evolve/solver_trotter2.cc: one_step", "src/evolve/solver_trotter3.cc: one_step", "src/evolve/solver_trotter4.cc: one_step", "src/evolve/trotter_unitary.cc"]}
{"id": "C70", "title": "One Trotter step is the product of its layers", "statement": "one_step of Trotter2Solver applies the even layer and then the odd one, Trotter3Solver half an even layer, an odd layer and half an even layer, ForestRuthSolver its seven layers in order; if no singular value is discarded the new wave function is exactly the product of these layers applied to the old one (strategies TRUNCATE_EACH_UNITARY and DO_NOT_TRUNCATE, normalisation off); it aborts exactly when truncation is requested with Dmax=0.", "quantifier": "every Hamiltonian, state, complex time step, direction and length", "why_tests_cant": "Tests use a handful of random chains of small length, dimension and bond size; the claim is about every chain length, every per-site dimension, every bond dimension and every tensor content.", "anchors": ["src/evolve/solver_trotter2.cc: one_step", "src/evolve/solver_trotter3.cc: one_step", "src/evolve/solver_trotter4.cc: one_step"]}
{"id": "C71", "title": "Truncation error of a gate at the orthogonality centre", "statement": "on an open chain in canonical form around sites k,k+1, the error reported by apply_onto_two_sites without maximal dimension is exactly the squared distance between the resulting state and the gate applied to the original state.", "quantifier": "every state in that form, gate, tolerance", "why_tests_cant": "Tests use a handful of random chains of small length, dimension and bond size; the claim is about every chain length, every per-site dimension, every bond dimension and every tensor content.", "anchors": ["src/evolve/trotter_unitary.cc: apply_onto_two_sites"]}
{"id": "C72", "title": "Energy through the MPO equals energy from the terms", "statement": "on an open chain whose sites all have a local term, expected(psi, CMPO(H,t)) equals expected(psi,H,t).", "quantifier": "every Hamiltonian, state and length", "why_tests_cant": "Tests use a handful of random chains of small length, dimension and bond size; the claim is about every chain length, every per-site dimension, every bond dimension and every tensor content.", "anchors": ["src/mpo/cmpo_from_hamiltonian.cc", "src/hamiltonian/hamiltonian_expected.cc"]}
{"id": "C73", "title": "Decomposition of a two-site operator up to normalisation", "statement": "decompose_operator(H12,&O1,&O2) of a non-zero operator on two equal sites returns operators whose sum of tensor products has Frobenius norm one and is proportional, with a positive factor, to H12 up to a relative error governed by the truncation tolerance; split_interaction(H12,&v1,&v2) does the same with the second factors complex conjugated.", "quantifier": "every non-zero two-site operator", "why_tests_cant": "Tests use a few Pauli products.", "anchors": ["src/quantum/decompose_operator.cc", "src/hamiltonian/split_interaction.cc", "src/tools/limited_svd_d.cc"]}
{"id": "C74", "title": "Hamiltonian objects fit the chain", "statement": "TIHamiltonian(N,H12,H1,periodic) has N sites, answers H1 and H12 (zero matrices when missing) at every site, with as many left as right operators, of the local dimension; it aborts if both are missing; ConstantHamiltonian, after any valid sequence of calls, has terms of the dimensions of the chain, and never an interaction between the last and the first site.", "quantifier": "every N, H12, H1, history of calls", "why_tests_cant": "Histories and sizes are unbounded.", "anchors": ["src/hamiltonian/hamiltonian_ti.cc", "src/hamiltonian/hamiltonian_constant.cc"]}
{"id": "C75", "title": "Sparse matrix of an open chain", "statement": "sparse_1d_hamiltonian(H12[],H1[],false), sparse_1d_hamiltonian(H12,H1,N,false) and sparse_hamiltonian(H) of an open chain are the sum over sites of 1 x h_k x 1 plus the sum over the bonds k<N-1 of 1 x h_{k,k+1} x 1 in the basis with the first site fastest.", "quantifier": "every length, local dimensions and terms", "why_tests_cant": "Tests use a handful of random chains of small length, dimension and bond size; the claim is about every chain length, every per-site dimension, every bond dimension and every tensor content.", "anchors": ["src/quantum/sparse_1d_hamiltonian_many.cc", "src/quantum/sparse_1d_hamiltonian.cc", "src/hamiltonian/sparse_hamiltonian.cc"]}
{"id": "C76", "title": "QuadraticForm two-site diagonal", "statement": "after any history of propagations, when bra and ket have equal bond dimensions around the pair, take_two_site_matrix_diag(sense) is the diagonal of two_site_matrix(sense), and is empty exactly when the matrix is.", "quantifier": "every MPO, every pair of states, every history, both senses", "why_tests_cant": "Histories are unbounded.", "anchors": ["src/dmrg/qform.cc: take_two_site_matrix_diag"]}
{"id": "C77", "title": "Single-site minimisation", "statement": "minimize(H,&psi,opt) with Dmax=0 and at least one sweep, for a Hermitian MPO H, if the eigenvalue solver succeeds: psi is a normalised state, the value returned is exactly <psi|H|psi>, energies of successive sweeps never increase, the value is not above the energy of the initial state, it is optimal with respect to the tensor at one end of the chain, at most opt.sweeps sweeps are run and fewer only if the last two energies differ by less than the tolerance. If H has no vanishing expectation values it returns.", "quantifier": "every Hermitian MPO, initial state, options, eigenvalue solver and SVD", "why_tests_cant": "Tests use a handful of random chains of small length, dimension and bond size; the claim is about every chain length, every per-site dimension, every bond dimension and every tensor content.", "anchors": ["src/dmrg/minimizer.cc", "src/dmrg/minimizer_d.cc", "src/dmrg/minimizer_z.cc"]}
{"id": "C78", "title": "Two-site minimisation", "statement": "minimize(H,&psi,opt) with Dmax>0 and at least one sweep, for a Hermitian MPO H, if the eigenvalue solver succeeds: all bonds of psi are at most Dmax, the value returned is the energy of a normalised state at the distance from psi given by the weight of the singular values dropped in the last step (so of psi if nothing is dropped), it is never below the lowest expectation value of H, and not above the energy of any state which differs from psi only in the two tensors at one end. If H has no vanishing expectation values and there are two sites or more it returns.", "quantifier": "every Hermitian MPO, initial state, options, eigenvalue solver and SVD", "why_tests_cant": "Tests use a handful of random chains of small length, dimension and bond size; the claim is about every chain length, every per-site dimension, every bond dimension and every tensor content.", "anchors": ["src/dmrg/minimizer.cc", "src/dmrg/minimizer_d.cc", "src/dmrg/minimizer_z.cc"]}
{"id": "C79", "title": "Constrained minimisation", "statement": "minimize(H,&psi,opt,N,value) takes the constraint N = value into account, whatever the options.", "quantifier": "every H, N, value, options", "why_tests_cant": "Tests use a handful of random chains of small length, dimension and bond size; the claim is about every chain length, every per-site dimension, every bond dimension and every tensor content.", "anchors": ["src/dmrg/minimizer.cc: add_constraint, single_site_step, two_site_step"]}
{"id": "C80", "title": "Simplification of a superposition on an open chain", "statement": "simplify_obc(&P,weights,Q,&sense,sweeps,normalize,Dmax,tol), started from a state in the canonical form that sense describes, with at least one sweep and a non-zero target: P becomes a state of the same chain, the value returned is the relative distance ||P-sum w Q||/||sum w Q|| of the state before normalisation, zero exactly if the target has been reached; no change of the tensor at the centre brings it closer; up to truncation it is not further than the initial guess and the errors of successive sweeps do not grow; sense describes the canonical form of the result, with or without normalize; with normalize the result has norm one; the number reported as norm is that of the state before normalisation; bonds are at most Dmax>0; at most sweeps sweeps are run and the loop ends as soon as the improvement is below 1e-5 of the error or the error below the tolerance.", "quantifier": "every target, weights, initial guess, number of sweeps, options and SVD", "why_tests_cant": "Tests use a handful of random chains of small length, dimension and bond size; the claim is about every chain length, every per-site dimension, every bond dimension and every tensor content.", "anchors": ["src/dmrg/simplify_obc.cc", "src/dmrg/lform.cc"]}
{"id": "C81", "title": "Apply a layer and simplify", "statement": "Unitary::apply_and_simplify(&P,Dmax,tol,normalize) leaves a state of the same open chain with all bonds at most Dmax; if the layer applied exactly needs no larger bonds it is the result, otherwise the result is what simplify_obc promises for it with twelve sweeps; the error returned is the truncated weight plus the relative distance of the simplification.", "quantifier": "every Hamiltonian, layer, state, Dmax, tolerance", "why_tests_cant": "Tests use a handful of random chains of small length, dimension and bond size; the claim is about every chain length, every per-site dimension, every bond dimension and every tensor content.", "anchors": ["src/evolve/trotter_unitary.cc: apply_and_simplify", "src/dmrg/simplify_obc.cc"]}
{"id": "C82", "title": "One step respects Dmax", "statement": "after one_step(&P,Dmax), Dmax>0, of Trotter2Solver and Trotter3Solver with any strategy that truncates, and of ForestRuthSolver with the strategies each-unitary and groups, all bonds of P are at most Dmax, with or without normalize.", "quantifier": "every Hamiltonian, open chain, time step, Dmax, flags", "why_tests_cant": "Tests use a handful of random chains of small length, dimension and bond size; the claim is about every chain length, every per-site dimension, every bond dimension and every tensor content.", "anchors": ["src/evolve/solver_trotter2.cc", "src/evolve/solver_trotter3.cc", "src/evolve/solver_trotter4.cc", "src/evolve/trotter_unitary.cc"]}
{"id": "C83", "title": "Expected values over complete cells", "statement": "expected12(psi,Op12,site) is the expected value of Op12 on two neighbouring sites of the parity of site, and element n of string_order(psi,opi,opm,opj,N) is the expected value of opi on site 0, opm on the sites 1..n-1 and opj on site n (opi*opj on site 0 for n=0), computed in the smallest window of complete two-site cells that contains the operator.", "quantifier": "every state, operator, site and N", "why_tests_cant": "Unbounded N, all states.", "anchors": ["src/iTEBD/canonical_expected.hpp: do_expected12, do_string_order_many"]}
{"id": "C84", "title": "Values over cells are those of the infinite chain", "statement": "If the state is canonical at the bond between cells (up to factors), what expected12 and the list-valued string_order return is the expected value in every larger window of complete cells.", "quantifier": "every state, operator, window", "why_tests_cant": "Unbounded windows.", "anchors": ["src/iTEBD/canonical_expected.hpp: do_expected12, do_string_order_many"]}
{"id": "C85", "title": "All ways to compute an expected value agree", "statement": "For a state canonical at the bond between cells, expected and string_order return the expected value in every larger window; expected12(kron2(A,B),i) is expected(A,i,B,i+1) and element n of the list-valued string_order is string_order(0,n).", "quantifier": "every state, operator, site", "why_tests_cant": "Unbounded windows and distances.", "anchors": ["src/iTEBD/canonical_expected.hpp: do_string_order"]}
{"id": "C86", "title": "Infinite GHZ and AKLT states", "statement": "Every window of infinite_ghz_state is a state with all spins equal; in every window of infinite_aklt_state no two neighbours are in a state of total spin 2, and the string order of S_z is -4/9 at all distances.", "quantifier": "every window, position, distance", "why_tests_cant": "Unbounded windows.", "anchors": ["src/iTEBD/itebd_ghz_state.cc", "src/iTEBD/itebd_aklt_state.cc"]}
{"id": "C87", "title": "Canonical form of an infinite state", "statement": "canonical_form() of an infinite state, if the eigenvalue solver returns eigenvectors with real eigenvalues and definite Hermitian part: the result is the same chain (the wave function of every window of whole cells changes only by an invertible change of basis of its surroundings, the same for all windows), it is flagged canonical, its cells are right- and left-canonical at the bond between cells, and expected values in it are those of the original state whose surroundings are in the leading eigenvectors; so are the values of expected12 of a state which is not canonical.", "quantifier": "every state, every solver with these properties, windows of any length", "why_tests_cant": "Unbounded windows, all states.", "anchors": ["src/iTEBD/itebd_canonical.hpp: canonical_form, itebd_power_eig, ortho_basis"]}
{"id": "C88", "title": "Two-site operators on an infinite state", "statement": "apply_operator(U,site,tol,max_dim) on an infinite state whose two sites have the same dimension: on a canonical state and an even site the result has the same bond between cells, an inner bond of at most max_dim>0 (and at most the full rank), non-negative Schmidt values there, a cell wave function of norm one which is, up to a positive factor, the best approximation of that bond dimension to the exact cell wave function; with max_dim=0 the weight lost is at most the tolerance; if nothing is dropped, U has acted on all pairs (site,site+1) modulo 2 of every window of any length, up to the norm. On any other state or site the same holds up to an invertible change of basis of the surroundings. If the two local dimensions differ the call aborts.", "quantifier": "every state, operator, site, tolerance, max_dim, SVD and eigenvalue solver; windows of any length", "why_tests_cant": "Unbounded windows, all states.", "anchors": ["src/iTEBD/itebd_canonical.hpp: apply_operator, split_tensor"]}
{"id": "C89", "title": "Infinite product states", "statement": "iTEBD(A) and iTEBD(A,B) from non-zero vectors make a canonical state with bonds of dimension one in which every window is the product of the normalised vectors, A on the even and B on the odd sites; expected(psi,Op,site) and string_order are products of the one-site expected values.", "quantifier": "every pair of vectors, window, site, operators and distance", "why_tests_cant": "Unbounded windows and distances.", "anchors": ["src/iTEBD/itebd.hpp: iTEBD(A), iTEBD(A,B)", "src/iTEBD/canonical_expected.hpp"]}
{"id": "C90", "title": "Imaginary time evolution of an infinite state", "statement": "evolve_itime(psi,H12,dt,nsteps,tol,max_dim,deltan,method,&energies,&entropies), nsteps a multiple of deltan>0, two sites of the same dimension: it never fails; exactly nsteps steps are run, each a product of operators exp(-t H12) on the even and on the odd pairs whose times add up to dt on both (symmetric for the second and fourth order methods); the state is put in canonical form at the beginning and after every deltan steps, and its energy and entropy are recorded then, 1+nsteps/deltan times; the result is flagged canonical and its bonds are at most max_dim>0.", "quantifier": "every state, H12, dt, nsteps, deltan, method, tolerance, max_dim", "why_tests_cant": "Unbounded number of steps, all states.", "anchors": ["src/iTEBD/itebd_itime.hpp: evolve_itime"]}
{"id": "C91", "title": "Entropy and Schmidt numbers at odd sites", "statement": "schmidt(site) are the squares of the elements of left_vector(site); for a canonical state without vanishing Schmidt values entropy(site) at an odd site is the entropy of the normalised schmidt(site), between 0 and the logarithm of the bond dimension.", "quantifier": "every canonical state, odd site", "why_tests_cant": "All states and bond dimensions.", "anchors": ["src/iTEBD/itebd.hpp: entropy, schmidt"]}
{"id": "C92", "title": "Energy of an infinite state", "statement": "energy(psi,H12) is the energy per two-site cell: for a state canonical at the bond between cells, the expected value of the sum of H12 over the 2n pairs of neighbours that start in n consecutive cells is n*energy(psi,H12).", "quantifier": "every state, H12, n", "why_tests_cant": "Unbounded number of cells.", "anchors": ["src/iTEBD/itebd_energy_d.cc", "src/iTEBD/itebd_energy_z.cc", "src/iTEBD/canonical_expected.hpp: do_expected12"]}
{"id": "C93", "title": "simplify towards one target", "statement": "simplify(&P,Q,&sense,false,sweeps,normalize) on open chains of the same size (two or more sites), sense=+1/-1, sweeps>0: whenever it returns, the result is a state of the same chain with bonds no larger than those of P, in the canonical form left by the last sweep; the value returned is 1 - |<Q|P>|/(|Q||P|), in [0,1); the last tensor of the state before normalisation is the least-squares optimum; if P was in the canonical form that sense stands for the squared distance to Q is not larger than before, and the errors of successive sweeps do not grow; the iteration stops after the first sweep that improves the error by less than a factor 1e-5 or reaches the tolerance, or after sweeps sweeps. It returns whenever P is not orthogonal to Q. With sweeps=0 nothing changes and |P-Q|^2 is returned. Chains of one site, sense=0 and periodic boundary conditions are rejected.", "quantifier": "every pair of states, sense, number of sweeps, tolerance, SVD", "why_tests_cant": "All states, all histories of sweeps.", "anchors": ["src/mps/mps_simplify.cc: do_simplify, build_next_projector, normalize_this"]}
{"id": "C94", "title": "simplify: the normalize flag", "statement": "With normalize=true simplify(&P,Q,&sense,...) returns a state of norm one.", "quantifier": "every pair of states, number of sweeps", "why_tests_cant": "Tests use a handful of random chains of small length, dimension and bond size; the claim is about every chain length, every per-site dimension, every bond dimension and every tensor content.", "anchors": ["src/mps/mps_simplify.cc: do_simplify"]}
{"id": "C95", "title": "simplify towards a combination of vectors, one site at a time", "statement": "simplify(&P,{Q_i},weights,&sense,sweeps,normalize) on open chains of the same size (two or more sites), sense=+1/-1 or a null pointer (+1), when P is not orthogonal to the target sum weights_i Q_i: it returns; at least one and at most max(sweeps,1) sweeps are run; the result is a state of the same chain with bonds no larger than those of P, in the canonical form left by the last sweep; the value returned is the squared distance between the target and the state found, before it is normalised; its last tensor is the least-squares optimum; if P was in the canonical form that sense stands for the distance is not larger than before, and the errors of successive sweeps do not grow; the iteration stops after the first sweep whose error differs from the previous one by less than 1e-5 of the squared norm of the target, or is below the tolerance times that, or below 1e-14. An empty set of vectors, chains of one site and sense=0 are rejected.", "quantifier": "every set of vectors, weights, initial guess, sense, number of sweeps, tolerance, SVD", "why_tests_cant": "All states, all histories of sweeps.", "anchors": ["src/mps/mps_simplify_many.cc: MPSManySimplifier, simplify"]}
{"id": "C96", "title": "simplify towards a combination of vectors, two sites at a time", "statement": "simplify(&P,{Q_i},weights,Dmax,tol,&sense,sweeps,normalize), tol not zero, on open chains of the same size (two or more sites): without normalize it always returns; whenever it returns the result is a state of the same chain with bonds at most Dmax if Dmax>0, in the canonical form left by the last sweep; the value returned is the squared distance between the target and the state found, before it is normalised; its last tensor is the least-squares optimum; up to the weight of the singular values dropped the distance is not larger than before, if P was in the canonical form that sense stands for; numbers of sweeps, stopping rule and rejected arguments are those of the one-site version.", "quantifier": "every set of vectors, weights, initial guess, Dmax, tol, sense, number of sweeps, tolerance, SVD", "why_tests_cant": "All states, all histories of sweeps.", "anchors": ["src/mps/mps_simplify_many.cc: MPSManySimplifier, simplify, next_projector_2_sites"]}
{"id": "C97", "title": "Single-site DMRG", "statement": "DMRG(H).minimize(&P,0,E) for an open Hermitian Hamiltonian of two or more sites with all its local terms and at least one sweep allowed: it returns whenever the eigenvalue solver succeeds; the state returned is a state of the same chain; the number returned is the energy expected(chi,H) of a normalised state chi which no change of one tensor can lower, and chi differs from the state returned by the weight dropped in the last step (zero after an odd number of sweeps); if nothing is dropped the energies of the sweeps do not increase and the last is not above the initial energy; at most `sweeps` sweeps are made, and fewer only if two energies differ by less than `tolerance` or the energy grows. Periodic Hamiltonians, chains of less than two sites and Hamiltonians without a local term are rejected.", "quantifier": "every open Hermitian Hamiltonian, state, number of sweeps, tolerance, initial energy, SVD and eigenvalue solver", "why_tests_cant": "Tests use a handful of random chains of small length, dimension and bond size; the claim is about every chain length, every per-site dimension, every bond dimension and every tensor content.", "anchors": ["src/dmrg/dmrg.cc: DMRG::minimize, minimize_single_site, update_matrices_left, update_matrices_right, block_site_interaction_left, block_site_interaction_right"]}
{"id": "C98", "title": "RDMRG and real Hamiltonians", "statement": "For a Hamiltonian all of whose matrix elements are real, RDMRG(H).minimize returns the energy of a real state for that Hamiltonian, not above the initial one when nothing is truncated.", "quantifier": "every open Hermitian Hamiltonian with real matrix elements, every state", "why_tests_cant": "Tests use a handful of random chains of small length, dimension and bond size; the claim is about every chain length, every per-site dimension, every bond dimension and every tensor content.", "anchors": ["src/dmrg/dmrg.cc: to_tensor", "include/mps/dmrg.h: RDMRG"]}
{"id": "C99", "title": "DMRG orthogonal to given states", "statement": "After orthogonal_to(Q) the state found by minimize is orthogonal to Q.", "quantifier": "every Hamiltonian, state and set of states", "why_tests_cant": "Tests use a handful of random chains of small length, dimension and bond size; the claim is about every chain length, every per-site dimension, every bond dimension and every tensor content.", "anchors": ["src/dmrg/dmrg.cc: orthogonal_to, minimize_single_site, projector_twosites"]}
{"id": "C100", "title": "Solving linear equations, one site at a time", "statement": "solve(H,&P,Q,&sense,sweeps,normalize) with the single-site algorithm on an open chain, H Hermitian, when the canonical forms of Q and H Q are exact: whenever it returns, the value returned is |H P - Q|^2 for the state P of the last sweep (before normalisation), zero exactly if H P = Q; no change of the last tensor brings H P closer to Q; if no update of P is truncated, it is not further than the initial guess (Q if P was empty) and the errors of successive sweeps do not grow; the result has the same sizes, sense describes its canonical form, and with normalize it is the state found divided by its norm; at most `sweeps` sweeps are made, fewer only when the error decreases by less than a factor 1e-5 or is below the tolerance. It returns if |Q|^2 >= 1e-16 and H is not zero, and rejects sweeps=0 and |Q|^2 < 1e-16.", "quantifier": "every open Hermitian MPO, states P (or empty) and Q, sense, number of sweeps, tolerance, SVD and linear solver", "why_tests_cant": "Tests use a handful of random chains of small length, dimension and bond size; the claim is about every chain length, every per-site dimension, every bond dimension and every tensor content.", "anchors": ["src/dmrg/inverse.cc: do_solve, solve"]}
{"id": "C101", "title": "Solving linear equations, two sites at a time", "statement": "solve(H,&P,Q,&sense,sweeps,normalize,Dmax,tol) with the two-site algorithm on an open chain of two or more sites, H Hermitian, when the canonical forms of Q and H Q are exact: whenever it returns, the value returned is |H e - Q|^2 for a vector e whose squared distance to the state found is at most the weight of the singular values dropped; if none were dropped it is |H P - Q|^2, zero exactly if H P = Q; if the conjugate gradients converge no change of the last two tensors, whatever the bond between them, does better; if they never make a guess worse and nothing is dropped, the state is not further than the initial guess and the errors of successive sweeps do not grow; bonds are at most Dmax if Dmax>0; sizes, sense, normalize, number of sweeps and stopping rule as in the one-site version. It returns if |Q|^2 >= 1e-16 and H is not zero.", "quantifier": "every open Hermitian MPO, states P (or empty) and Q, sense, number of sweeps, Dmax, tolerances, SVD and conjugate-gradient solver", "why_tests_cant": "Tests use a handful of random chains of small length, dimension and bond size; the claim is about every chain length, every per-site dimension, every bond dimension and every tensor content.", "anchors": ["src/dmrg/inverse.cc: do_solve, solve"]}
{"id": "C102", "title": "Solving linear equations with any operator", "statement": "solve(H,&P,Q,...) returns |H P - Q|^2 and minimises it, for every open complex MPO H, Hermitian or not.", "quantifier": "every open MPO, states P and Q", "why_tests_cant": "Tests use a handful of random chains of small length, dimension and bond size; the claim is about every chain length, every per-site dimension, every bond dimension and every tensor content.", "anchors": ["src/dmrg/inverse.cc: do_solve"]}
{"id": "C103", "title": "One step of the Arnoldi solver", "statement": "ArnoldiSolver(H,dt,nvectors).one_step(&psi,Dmax), 1<=nvectors<30, for every open-boundary state psi, every Hermitian MPO H of the same chain and every complex dt: it returns; the new psi is a state of the same chain, of norm one unless it vanishes, with bonds at most Dmax if Dmax>0; it is the simplify_obc approximation of a superposition of at most nvectors states the first of which is psi normalised, and equals that superposition, normalised, if the last compression makes no error. nvectors<=0 or >=30 is rejected.", "quantifier": "every Hermitian MPO, state, complex time step, nvectors, Dmax, flags, SVD and linear algebra within their specification", "why_tests_cant": "Tests use a handful of random chains of small length, dimension and bond size; the claim is about every chain length, every per-site dimension, every bond dimension and every tensor content.", "anchors": ["src/evolve/arnoldi.cc: ArnoldiSolver::ArnoldiSolver, ArnoldiSolver::one_step", "include/mps/time_evolve.h: ArnoldiSolver"]}
{"id": "C104", "title": "The Arnoldi solver conserves norm and energy", "statement": "For real dt and |psi|=1, when the canonical forms drop nothing, the superposition computed by one_step (before the final compression) has norm one and the energy of psi, whatever nvectors and however inexact and non-orthogonal the vectors of the basis are.", "quantifier": "every Hermitian MPO, normalised state, real time step, nvectors, Dmax", "why_tests_cant": "Tests use a handful of random chains of small length, dimension and bond size; the claim is about every chain length, every per-site dimension, every bond dimension and every tensor content.", "anchors": ["src/evolve/arnoldi.cc: ArnoldiSolver::one_step"]}
{"id": "C105", "title": "The Arnoldi solver is a Krylov method", "statement": "For |psi|=1 and complex dt, when the canonical forms drop nothing: the superposition computed by one_step is exp(-i H dt) psi exactly whenever all H^k psi are superpositions of the basis, in particular when psi is an eigenvector of H, or when the compressions make no error and the Krylov space of psi has no more dimensions than the basis has vectors; if the compressions make no error, the m vectors of the basis are orthonormal, span psi, H psi, ..., H^(m-1) psi, and the error is of order dt^m.", "quantifier": "every Hermitian MPO, normalised state, complex time step, nvectors, Dmax", "why_tests_cant": "Tests use a handful of random chains of small length, dimension and bond size; the claim is about every chain length, every per-site dimension, every bond dimension and every tensor content.", "anchors": ["src/evolve/arnoldi.cc: ArnoldiSolver::one_step"]}
{"id": "C106", "title": "The Arnoldi solver with dt=0 minimises the energy", "statement": "With dt=0, |psi|=1, linearly independent vectors in the basis and canonical forms that drop nothing, the superposition computed by one_step has the lowest energy of all the superpositions of the vectors of the basis; if the compressions make no error, no higher than the energy of psi, H psi, ..., H^(m-1) psi.", "quantifier": "every Hermitian MPO, normalised state, nvectors, Dmax", "why_tests_cant": "Tests use a handful of random chains of small length, dimension and bond size; the claim is about every chain length, every per-site dimension, every bond dimension and every tensor content.", "anchors": ["src/evolve/arnoldi.cc: ground_state, ArnoldiSolver::one_step"]}
{"id": "C107", "title": "The Arnoldi solver and states that are not normalised", "statement": "For any non-zero psi, when no compression makes an error, one_step evolves psi/|psi|: an eigenvector with energy E gets the phase exp(-i E dt).", "quantifier": "every Hermitian MPO, state, time step", "why_tests_cant": "Tests use a handful of random chains of small length, dimension and bond size; the claim is about every chain length, every per-site dimension, every bond dimension and every tensor content.", "anchors": ["src/evolve/arnoldi.cc: ArnoldiSolver::one_step"]}
{"id": "C108", "title": "Real states with complex operators", "statement": "CMPS(psi) of a real state has the same bonds and amplitudes, so the same scalar products and norm; expected(psi,op,k), expected(psi,op) and expected(psi,op1,k1,op2,k2) of a real state with complex matrices are <psi|op_k|psi>, its sum over all sites, and <psi|op1_k1 op2_k2|psi>; with an operator with real elements they are the real values; an index out of range is rejected.", "quantifier": "every real MPS, open or periodic, every complex matrix, every site", "why_tests_cant": "Tests use a handful of random chains of small length, dimension and bond size; the claim is about every chain length, every per-site dimension, every bond dimension and every tensor content.", "anchors": ["src/mps/cmps_from_rmps.cc: CMPS::CMPS(RMPS)", "src/mps/mps_expected1_dz.cc: expected", "src/mps/mps_expected2_dz.cc: expected"]}
{"id": "C109", "title": "Infinite states: expected values with powers of the transfer matrix", "statement": "With MPS_ITEBD_EXPECTED_METHOD = MPS_ITEBD_SLOW_EXPECTED, expected, string_order, expected12 and energy of an infinite state return the expected value of the operators on a ring made of the cells they act on and 1024 more cells, if the wave function of this ring is not zero; equal sites multiply the operators; exchanging the operators with their sites changes nothing. If the correlations die out, the values on larger and larger rings tend to the value on the infinite chain; for product states they are equal.", "quantifier": "every infinite state, canonical or not, with tensors of compatible sizes, every sites and operators", "why_tests_cant": "Tests use a handful of random chains of small length, dimension and bond size; the claim is about every chain length, every per-site dimension, every bond dimension and every tensor content.", "anchors": ["src/iTEBD/slow_expected.hpp: slow_string_order, slow_expected12", "src/tools/build_E_matrix.hpp: do_build_E_matrix", "src/iTEBD/itebd_string_order_d.cc", "src/iTEBD/itebd_expected12_d.cc"]}
{"id": "C110", "title": "Infinite states: expected values with a boundary vector, where they are defined", "statement": "With MPS_ITEBD_EXPECTED_METHOD = MPS_ITEBD_BDRY_EXPECTED, expected12 and energy of an infinite state, expected of two operators on the two sites of a cell, and string_order with three matrices when the first site is even and the last odd, return the expected value of the operators on a ring made of the cells they act on and some positive number of further cells, if no ring wave function is zero; exchanging the operators with their sites changes nothing.", "quantifier": "every infinite state with tensors of compatible sizes, every sites and matrices as above, any number of steps of the power method", "why_tests_cant": "Tests use a handful of random chains of small length, dimension and bond size; the claim is about every chain length, every per-site dimension, every bond dimension and every tensor content.", "anchors": ["src/iTEBD/bdry_expected.hpp: left_boundary, bdry_string_order, bdry_expected12", "src/iTEBD/itebd_string_order_d.cc", "src/iTEBD/itebd_expected12_d.cc", "src/iTEBD/itebd_expected2_d.cc"]}
{"id": "C111", "title": "Infinite states: every expected value can be computed with a boundary vector", "statement": "With MPS_ITEBD_EXPECTED_METHOD = MPS_ITEBD_BDRY_EXPECTED, expected(psi,Op,site), expected(psi,Op1,i,Op2,j) and string_order return, for all sites, the expected value of the operators.", "quantifier": "every infinite state, sites and operators", "why_tests_cant": "Tests use a handful of random chains of small length, dimension and bond size; the claim is about every chain length, every per-site dimension, every bond dimension and every tensor content.", "anchors": ["src/iTEBD/bdry_expected.hpp: bdry_string_order", "src/iTEBD/itebd_expected1_d.cc", "src/iTEBD/itebd_expected2_d.cc", "src/mps/mps_prop_matrix.cc: do_prop_right"]}
{"id": "C112", "title": "Order of the Trotter solvers: one step", "statement": "one_step(&P,Dmax) with MPS_TRUNCATE_EACH_UNITARY or MPS_DO_NOT_TRUNCATE, without normalisation, when no singular value is dropped: the distance between the new state and the exact solution at time dt of Schroedinger's equation i d psi/dt = H psi starting from the old state is at most C |dt|^2 |P| for Trotter2Solver and C |dt|^3 |P| for Trotter3Solver, with C depending only on H, for every complex dt with nonpositive imaginary part smaller than some positive number depending on H; for ForestRuthSolver and real dt it is at most 1e-13 times the error of the layers of Trotter3Solver plus C |dt|^5 |P|.", "quantifier": "every open nearest-neighbour Hamiltonian, Hermitian or not, every state, every small enough time step, Dmax, sense, SVD", "why_tests_cant": "The order of a method is a limit: it ranges over all small enough time steps, all chains and all states.", "anchors": ["src/evolve/solver_trotter2.cc: Trotter2Solver", "src/evolve/solver_trotter3.cc: Trotter3Solver", "src/evolve/solver_trotter4.cc: ForestRuthSolver", "src/evolve/trotter_unitary.cc: Unitary::Unitary, Unitary::apply"]}
{"id": "C113", "title": "Order of the Trotter solvers: many steps", "statement": "n steps with the same solver under the conditions of the previous property: for every T there is C depending only on H and T such that, for n|dt| <= T, the distance between the final state and the exact evolution of the first one during the time n dt is at most C |dt| |P| for Trotter2Solver and C |dt|^2 |P| for Trotter3Solver; if H is Hermitian and dt is real it is at most n C |dt|^2 |P|, n C |dt|^3 |P|, and n (1e-13 C' |dt|^3 + C |dt|^5) |P| for ForestRuthSolver, for any n, with C independent of T.", "quantifier": "every open nearest-neighbour Hamiltonian, every state, every small enough time step, every number of steps, Dmax and sense of each step, SVD", "why_tests_cant": "All histories of steps, all small enough time steps.", "anchors": ["src/evolve/solver_trotter2.cc: Trotter2Solver::one_step", "src/evolve/solver_trotter3.cc: Trotter3Solver::one_step", "src/evolve/solver_trotter4.cc: ForestRuthSolver::one_step", "src/evolve/trotter_unitary.cc: Unitary::apply"]}
{"id": "C114", "title": "Trotter solvers with truncation: one step", "statement": "one_step(&P,Dmax) with MPS_TRUNCATE_EACH_UNITARY, without normalisation, a Hermitian Hamiltonian, a real time step, any Dmax > 0 and a state of an open chain in canonical form with respect to the end where the sweep begins (canonical_form(P,-1) for a new solver) leaves a state which is ready for the next step in the same sense. The squared norm decreases exactly by the value returned plus the weight of the singular values dropped by set_canonical, which is at most (layers)(sites) max(MPS_DEFAULT_TOLERANCE, DBL_EPSILON) |P|^2. If w is this total weight, the distance to the state obtained with the same gates without truncation is at most sqrt((layers) w); there are 2, 3 and 7 layers in Trotter2Solver, Trotter3Solver and ForestRuthSolver.", "quantifier": "every open nearest-neighbour Hermitian Hamiltonian, every state in canonical form, every real time step, Dmax > 0, sense, SVD", "why_tests_cant": "The bound must hold for every state, every time step and every choice of the singular vectors; tests only compare a few chains.", "anchors": ["src/evolve/trotter_unitary.cc: Unitary::apply, apply_onto_one_site, apply_onto_two_sites", "src/evolve/solver_trotter2.cc: Trotter2Solver::one_step", "src/evolve/solver_trotter3.cc: Trotter3Solver::one_step", "src/evolve/solver_trotter4.cc: ForestRuthSolver::one_step", "src/mps/mps_canonical.cc: set_canonical", "src/tools/split_tensor.cc"]}
{"id": "C115", "title": "Trotter solvers with truncation: many steps", "statement": "n steps with the same solver under the conditions of the previous property, each with its own Dmax > 0: the squared norm of the last state is the initial one less the total weight w of the singular values dropped, and the distance to the exact solution of Schroedinger's equation at time n dt is at most n b(dt) |P| + sqrt(n (layers) w), with b(dt) = C |dt|^2 for Trotter2Solver, C |dt|^3 for Trotter3Solver and 1e-13 C' |dt|^3 + C |dt|^5 for ForestRuthSolver, where the constants depend only on H.", "quantifier": "every open nearest-neighbour Hermitian Hamiltonian, every initial state in canonical form, every small enough real time step, every number of steps and sequence of Dmax, SVD", "why_tests_cant": "All histories of steps with all truncations.", "anchors": ["src/evolve/trotter_unitary.cc: Unitary::apply", "src/evolve/solver_trotter2.cc: Trotter2Solver::one_step", "src/evolve/solver_trotter3.cc: Trotter3Solver::one_step", "src/evolve/solver_trotter4.cc: ForestRuthSolver::one_step"]}
{"id": "C116", "title": "Constrained two-site minimisation", "statement": "minimize(H, &psi, opt, constraint, value) with opt.Dmax > 0, if it succeeds: no bond of psi exceeds Dmax; for a pair of sites at one end of the chain, the number returned is the energy of a normalised combination of block states |x>|i>|j>|y> (vectors of the left block, states of the two sites, vectors of the right block) whose expected value of the constraint is value up to 1e-6, and no such combination has a lower energy; the state returned differs from it by the discarded singular values. The block states are orthonormal, and if the constraint does not couple them the expected value of the constraint is value up to 1e-6. If no block state is allowed the call fails and leaves psi empty. For two sites it succeeds exactly when some diagonal element of the constraint is value up to 1e-6.", "quantifier": "all Hermitian Hamiltonians, constraints, values, initial states, dimensions, numbers of sweeps, and all SVD and eigenvalue routines that meet their contracts", "why_tests_cant": "Tests use a handful of random chains of small length, dimension and bond size; the claim is about every chain length, every per-site dimension, every bond dimension and every tensor content.", "anchors": ["src/dmrg/minimizer.cc: add_constraint, two_site_step, two_site_sweep, full_sweep, apply_qform2_with_subspace", "src/dmrg/minimizer_d.cc: minimize"]}
{"id": "C117", "title": "Canonical forms with truncation", "statement": "canonical_form(psi,sense) changes the state by no more than the truncation tolerance: |psi - psi'|^2 <= (number of bonds) max(MPS_TRUNCATION_TOLERANCE, DBL_EPSILON) |psi|^2, psi' is the orthogonal projection of psi on its ray and |psi - psi'|^2 = |psi|^2 - |psi'|^2.", "quantifier": "every open-boundary MPS, both senses, every tolerance between 0 and 1, every SVD", "why_tests_cant": "Tests use a handful of random chains of small length, dimension and bond size; the claim is about every chain length, every per-site dimension, every bond dimension and every tensor content.", "anchors": ["src/mps/mps_canonical.cc: set_canonical, either_form_inner", "src/mps/mps_canonical_d.cc: canonical_form", "src/tools/split_tensor.cc", "src/tools/truncate.cc: where_to_truncate"]}
{"id": "C118", "title": "Canonical forms are idempotent", "statement": "canonical_form_at(psi,k) of a state that already is in canonical form with respect to site k does not change the state: no amplitude changes and no bond grows, although the function sweeps through the chain and truncates, provided that D max(MPS_TRUNCATION_TOLERANCE, DBL_EPSILON) < 1 for the largest bond D. Hence canonical_form(canonical_form(psi,sense),sense) is the state canonical_form(psi,sense), and normal_form_at(psi,k) is exactly psi/|psi|.", "quantifier": "every open-boundary MPS in canonical form, every site, both senses, every tolerance, every SVD (including degenerate singular values)", "why_tests_cant": "Tests use a handful of random chains of small length, dimension and bond size; the claim is about every chain length, every per-site dimension, every bond dimension and every tensor content.", "anchors": ["src/mps/mps_canonical.cc: set_canonical, either_form_inner", "src/mps/mps_canonical_d.cc: canonical_form, normal_form", "src/tools/split_tensor.cc", "src/tools/truncate.cc: where_to_truncate"]}
{"id": "C119", "title": "The normalize option of the Trotter solvers", "statement": "One step of a Trotter solver whose option normalize is set (the default) returns a state of norm one, the one obtained without the option divided by its norm, and the same error.", "quantifier": "every open nearest-neighbour Hamiltonian, every state, complex time step, Dmax, sense and truncation strategy", "why_tests_cant": "Tests use a handful of random chains of small length, dimension and bond size; the claim is about every chain length, every per-site dimension, every bond dimension and every tensor content.", "anchors": ["src/evolve/trotter_unitary.cc: Unitary::apply, apply_and_simplify", "src/evolve/solver_trotter2.cc: Trotter2Solver::one_step", "src/evolve/solver_trotter3.cc: Trotter3Solver::one_step", "src/evolve/solver_trotter4.cc: ForestRuthSolver::one_step"]}
{"id": "C120", "title": "Canonical forms are projections", "statement": "y = canonical_form_at(psi,k) (and canonical_form(psi,sense)) is the point of its own ray closest to psi, whatever is truncated: <y|psi> = <y|y>, |psi - y|^2 = |psi|^2 - |y|^2, the norm never grows, and no multiple of y is closer to psi than y.", "quantifier": "every open-boundary MPS, every site, both senses, every positive tolerance, every SVD", "why_tests_cant": "Tests use a handful of random chains of small length, dimension and bond size; the claim is about every chain length, every per-site dimension, every bond dimension and every tensor content.", "anchors": ["src/mps/mps_canonical.cc: set_canonical, either_form_inner", "src/mps/mps_canonical_d.cc: canonical_form", "src/tools/split_tensor.cc"]}
{"id": "C121", "title": "Trotter solvers with the default strategy: one step", "statement": "apply_and_simplify (strategy MPS_TRUNCATE_EACH_LAYER, the default of the solvers) on a state of an open chain in canonical form with respect to the first site and with bonds of dimension D at most, a Hermitian Hamiltonian and a real time step: the state on which the need of a simplification is decided is again in canonical form with respect to the first site, its squared norm is smaller than that of the old state by a fraction 2 (sites) D max(tolerance, DBL_EPSILON) at most, and its distance to the exact layer is at most sqrt((sites + 1)(loss of squared norm)); the result is this state if no bond exceeds Dmax, otherwise what simplify_obc makes of it. One step of Trotter2Solver or Trotter3Solver in which no layer has to be simplified leaves a state in canonical form, with bonds of dimension Dmax at most, and with the same bounds times the number of layers, whatever the option normalize and the sense; with Dmax at least the dimension of the Hilbert space no layer is ever simplified.", "quantifier": "every open nearest-neighbour Hermitian Hamiltonian, every state in canonical form with respect to the first site, every real time step, tolerance, Dmax, sense, SVD", "why_tests_cant": "The bound must hold for every state, every time step and every choice of the singular vectors; tests only compare a few chains.", "anchors": ["src/evolve/trotter_unitary.cc: Unitary::apply, Unitary::apply_and_simplify", "src/evolve/solver_trotter2.cc: Trotter2Solver::one_step", "src/evolve/solver_trotter3.cc: Trotter3Solver::one_step", "src/mps/mps_canonical.cc: set_canonical, either_form_inner", "src/tools/split_tensor.cc", "src/tools/truncate.cc: where_to_truncate"]}
{"id": "C122", "title": "Trotter solvers with the default strategy: many steps", "statement": "n steps with the same Trotter2Solver or Trotter3Solver and the default strategy in which no layer has to be simplified, from a state in canonical form with respect to the first site with bonds of dimension Dmax at most: the squared norm decreases by a fraction 2 n (layers)(sites) Dmax max(tolerance, DBL_EPSILON) at most, and the distance to the exact solution of Schroedinger's equation at time n dt is at most n b(dt) |P| + sqrt(n (layers)(sites + 1)(loss of squared norm)), with b(dt) = C |dt|^2 for Trotter2Solver and C |dt|^3 for Trotter3Solver, where C depends only on H.", "quantifier": "every open nearest-neighbour Hermitian Hamiltonian, every initial state in canonical form, every small enough real time step, every number of steps, Dmax, SVD", "why_tests_cant": "All histories of steps with all truncations.", "anchors": ["src/evolve/trotter_unitary.cc: Unitary::apply_and_simplify", "src/evolve/solver_trotter2.cc: Trotter2Solver::one_step", "src/evolve/solver_trotter3.cc: Trotter3Solver::one_step", "src/mps/mps_canonical.cc: set_canonical, either_form_inner"]}
{"id": "C123", "title": "Several eigenvalues from single-site DMRG", "statement": "solver.neigenvalues = n; solver.minimize(&P) leaves in solver.eigenvalues max(1,n) numbers in ascending order, the first of which is the number returned. They are the energies of as many orthonormal states without matrix elements of H between them, which differ only in the tensor of one site, and the first of which is the state returned up to the weight truncated in the last step; entry j is never below the j-th lowest eigenvalue of H (Courant-Fischer). The state and the energy have all the properties of a run with neigenvalues = 1. minimize returns if no site has fewer states than eigenvalues are wanted and the eigenvalue solver succeeds.", "quantifier": "every open Hermitian nearest-neighbour Hamiltonian, initial state, number of eigenvalues, sweeps, tolerance, eigenvalue solver and SVD that meet their contracts", "why_tests_cant": "Tests use a handful of random chains of small length, dimension and bond size; the claim is about every chain length, every per-site dimension, every bond dimension and every tensor content.", "anchors": ["src/dmrg/dmrg.cc: minimize, minimize_single_site", "include/mps/dmrg.h: neigenvalues, eigenvalues"]}
{"id": "C124", "title": "DMRG with conserved quantities", "statement": "After solver.commutes_with(Q); solver.Q_values = {v}, solver.minimize(&P, Dmax) returns the lowest energy among the states with the given values of the conserved quantities.", "quantifier": "every Hamiltonian, every non-empty list of conserved quantities, every Dmax", "why_tests_cant": "Tests use a handful of random chains of small length, dimension and bond size; the claim is about every chain length, every per-site dimension, every bond dimension and every tensor content.", "anchors": ["src/dmrg/dmrg.cc: commutes_with, init_matrices, update_matrices_right, prepare_simplifier, minimize_two_sites"]}
{"id": "C125", "title": "Truncations and energies in single-site DMRG", "statement": "Single-site DMRG (DMRG::minimize(&P) with Dmax = 0) truncates each tensor it stores with the relative weight tau = max(MPS_TRUNCATION_TOLERANCE, DBL_EPSILON). If the energies of all normalised states are between -M and M then: the squared norm of the state returned is between 1 - tau and 1; its energy divided by its squared norm is between the number E returned and E + 2 M tau/(1 - tau); the energies of consecutive sweeps grow by at most (sites) 2 M tau/(1 - tau); and E is above the energy of the canonical form of the initial state (of the initial state itself if it is canonical with bonds of dimension B and B tau < 1) by at most (sweeps)(sites) 2 M tau/(1 - tau).", "quantifier": "every open Hermitian nearest-neighbour Hamiltonian, initial state, number of sweeps, tolerance, eigenvalue solver and SVD that meet their contracts", "why_tests_cant": "Tests use a handful of random chains of small length, dimension and bond size; the claim is about every chain length, every per-site dimension, every bond dimension and every tensor content.", "anchors": ["src/dmrg/dmrg.cc: minimize, minimize_single_site", "src/mps/mps_canonical.cc: set_canonical", "src/tools/split_tensor.cc", "src/tools/truncate.cc: where_to_truncate"]}
{"id": "C126", "title": "A layer of gates with truncation is a projection and nearly optimal", "statement": "Unitary(H,k,dt).apply(&P,&sense,tol,Dmax,false) with Dmax > 0 on a state of an open chain in canonical form with respect to the end where the sweep begins. Let T be the exact tensor product of the gates applied to P. For any Hamiltonian and any complex dt the new state y satisfies <y|T> = <y|y>: the squared distance to T is exactly the loss of squared norm. For a Hermitian Hamiltonian and real dt, |T - y|^2 <= (L/2) max(|T - phi|^2, max(tol,DBL_EPSILON)|P|^2) + L max(MPS_DEFAULT_TOLERANCE,DBL_EPSILON)|P|^2 for every wave function phi with Schmidt rank Dmax or less at the bonds of the gates, in particular every MPS with bonds of dimension Dmax or less: no state with the same bond dimension is closer to T by more than a factor sqrt(L/2), up to the tolerance.", "quantifier": "every open nearest-neighbour Hamiltonian, parity of the layer, complex (first part) or real (second part) time step, direction, tolerance, Dmax > 0, state in canonical form, competitor phi, SVD with sorted singular values", "why_tests_cant": "Tests use a handful of random chains of small length, dimension and bond size; the claim is about every chain length, every per-site dimension, every bond dimension and every tensor content.", "anchors": ["src/evolve/trotter_unitary.cc: Unitary::apply, apply_onto_one_site, apply_onto_two_sites", "src/tools/truncate.cc: where_to_truncate", "src/mps/mps_canonical.cc: set_canonical"]}
{"id": "C127", "title": "set_canonical_2_sites finds the best approximation", "statement": "let all tensors of an open chain except those at the pair be isometries (canonical form around the pair); set_canonical_2_sites with Dmax = D stores a state whose squared distance to the wave function with the pair tensor is exactly the weight it reports as lost, as is the squared norm that is missing; no wave function whose Schmidt rank at that bond is at most D, in particular no matrix product state with that bond dimension and whatever tensors elsewhere, is closer, unless the error is below the tolerance; with MPS_DO_NOT_TRUNCATE as tolerance none is closer at all; and without Dmax the squared distance is at most tolerance times the squared norm.", "quantifier": "every open chain, pair tensor, position, sense, maximal dimension, tolerance and competing wave function", "why_tests_cant": "Tests use a handful of random chains of small length, dimension and bond size; the claim is about every chain length, every per-site dimension, every bond dimension and every tensor content.", "anchors": ["src/mps/mps_canonical2.cc"]}
{"id": "C128", "title": "Truncation and energy in the two-site minimizer", "statement": "minimize(H, &psi, opt) with Dmax > 0, for a Hermitian MPO H, if it succeeds: the squared norm of psi is one minus the weight lost in the last truncation; if all energies of normalised states are between -M and M, the energy of psi divided by its squared norm is between the value E returned and E + 2 M lost/(1 - lost); and the truncation is the best possible: no wave function whose Schmidt rank at the bond concerned is at most Dmax is closer to the normalised state found by the eigenvalue solver, whose energy is E, unless the distance is below the tolerance.", "quantifier": "every open chain, Hermitian MPO, initial state, options with Dmax > 0 and one sweep or more, competing wave function", "why_tests_cant": "Tests use a handful of random chains of small length, dimension and bond size; the claim is about every chain length, every per-site dimension, every bond dimension and every tensor content.", "anchors": ["src/dmrg/minimizer.cc", "src/mps/mps_canonical2.cc"]}
{"id": "C129", "title": "Simulations can be run backwards", "statement": "Trotter3Solver and ForestRuthSolver apply a symmetric sequence of layers, so that n steps with a solver created with the real time step dt and then n steps with a solver created with -dt return to the initial wave function, if no singular values are dropped; on a chain of two qubits without truncation nothing is ever dropped and this holds for all states; with a Hermitian Hamiltonian and truncation after each gate the distance between the initial and the final wave function is at most the square root of (number of layers applied) times (weight dropped forwards) plus the same for the way back. Trotter2Solver, whose layers are not symmetric, is not reversible", "quantifier": "every open nearest-neighbour Hamiltonian (also not Hermitian in the first part), real time step, number of steps, initial state, senses and bond dimensions", "why_tests_cant": "Tests use a handful of random chains of small length, dimension and bond size; the claim is about every chain length, every per-site dimension, every bond dimension and every tensor content.", "anchors": ["src/evolve/solver_trotter3.cc", "src/evolve/solver_trotter4.cc", "src/evolve/solver_trotter2.cc", "src/evolve/trotter_unitary.cc"]}
{"id": "C130", "title": "The value returned by a step of the default strategy bounds the error", "statement": "Trotter2Solver and Trotter3Solver with the default strategy TRUNCATE_EACH_LAYER, a Hermitian Hamiltonian of an open chain and a real time step, from a state in canonical form with respect to either end with bonds of dimension Dmax at most: one_step does not fail, the new state is again of this kind, the value returned is not negative, and the distance between the new wave function and the exact product of the exponentials of the layers is at most (value returned + 2 K L sqrt(Dmax MPS_DEFAULT_TOLERANCE)) times the norm of the state, simplifications by simplify_obc included (K layers, L sites); with the option normalize, from a state of norm one, at most twice this value. For ForestRuthSolver, which simplifies its last two layers without limit for the bonds, the same holds from any state in canonical form with respect to either end, with the dimension of the Hilbert space in the place of Dmax.", "quantifier": "every open chain, Hermitian nearest-neighbour Hamiltonian, real time step, bond dimension, initial state in canonical form, both values of normalize, all outcomes of the alternating sweeps", "why_tests_cant": "Tests use a handful of random chains of small length, dimension and bond size; the claim is about every chain length, every per-site dimension, every bond dimension and every tensor content.", "anchors": ["src/evolve/trotter_unitary.cc: Unitary::apply_and_simplify", "src/evolve/solver_trotter2.cc", "src/evolve/solver_trotter3.cc", "src/dmrg/simplify_obc.cc", "include/mps/time_evolve.h"]}
{"id": "C131", "title": "Errors of simulations with the default strategy can be read off the values returned", "statement": "in a simulation of n steps as in C130, the distance between the last wave function and the solution of the Schroedinger equation at time n dt is at most the norm of the initial state times the sum of the values returned by one_step plus n (C dt^p + 2 K L sqrt(Dmax MPS_DEFAULT_TOLERANCE)), with p = 2 and K = 2 for Trotter2Solver, p = 3 and K = 3 for Trotter3Solver, a constant C which only depends on the Hamiltonian, and all dt small enough; with normalize and an initial state of norm one the values returned and the last term count twice; for ForestRuthSolver with K = 7, an error 1e-13 C3 dt^3 + C dt^5 per step and the dimension of the Hilbert space in the place of Dmax", "quantifier": "every open chain, Hermitian nearest-neighbour Hamiltonian, small time step, number of steps, bond dimension and initial state in canonical form", "why_tests_cant": "Tests use a handful of random chains of small length, dimension and bond size; the claim is about every chain length, every per-site dimension, every bond dimension and every tensor content.", "anchors": ["src/evolve/trotter_unitary.cc: Unitary::apply_and_simplify", "src/evolve/solver_trotter2.cc", "src/evolve/solver_trotter3.cc", "src/dmrg/simplify_obc.cc", "include/mps/time_evolve.h"]}
{"id": "C132", "title": "Canonical forms never increase a bond dimension", "statement": "canonical_form_at(psi, k), canonical_form, normal_form_at and normal_form return a state with the same number of sites in which no bond is larger than the same bond of psi; a bond to the left of site k is not larger than the product of the physical dimensions of the sites on its left, and a bond to the right of k not larger than the product of those on its right (times the dimension of the closing bond for a periodic chain). In particular canonical_form of an open chain with bonds up to Dmax is a state from which a Trotter solver with this Dmax may start.", "quantifier": "every chain, state (canonical or not), centre k and direction", "why_tests_cant": "Tests use a handful of random chains of small length, dimension and bond size; the claim is about every chain length, every per-site dimension, every bond dimension and every tensor content.", "anchors": ["src/mps/mps_canonical.cc", "src/mps/mps_canonical_d.cc: canonical_form, normal_form", "src/mps/mps_canonical_z.cc"]}
{"id": "C133", "title": "Expected values along a simulation are near the exact ones and the energy is conserved", "statement": "in a simulation of n steps as in C131 from a state of norm one, let e be the bound of C131 for the distance to the exact solution (twice the sum of the values returned plus the n terms of one step). Then expected(P, op, k) of the last state differs from the exact expected value at time n dt by at most 2 |op| e, the same holds for the two-site correlators expected(P, op1, j, op2, k), and the energy expected(P, H, t) of the last state differs from that of the first by at most 2 |H| e (|.| the operator norm).", "quantifier": "every open chain, Hermitian nearest-neighbour Hamiltonian, small time step, number of steps, bond dimension, initial state of norm one in canonical form, normalize or not, and observable", "why_tests_cant": "Tests use a handful of random chains of small length, dimension and bond size; the claim is about every chain length, every per-site dimension, every bond dimension and every tensor content.", "anchors": ["src/evolve/solver_trotter2.cc", "src/evolve/solver_trotter3.cc", "src/evolve/solver_trotter4.cc", "src/mps/mps_expected1.cc", "src/mps/mps_expected2.cc", "src/hamiltonian/hamiltonian_expected.cc"]}
{"id": "C134", "title": "Evolution in imaginary time lowers the energy", "statement": "for a Hermitian Hamiltonian of an open chain and a short enough time step -i tau, a simulation of n steps of Trotter2Solver or Trotter3Solver in which no singular values are dropped never makes the state vanish, and the energy <P|H|P>/<P|P> (from expected(P, H, t)) of the last state is at most that of the first plus n C tau^2 for Trotter2Solver, n C tau^3 for Trotter3Solver, with C independent of the state, of n and of tau.", "quantifier": "every open chain, Hermitian nearest-neighbour Hamiltonian, small tau, number of steps and non-vanishing initial state", "why_tests_cant": "Tests use a handful of random chains of small length, dimension and bond size; the claim is about every chain length, every per-site dimension, every bond dimension and every tensor content.", "anchors": ["src/evolve/solver_trotter2.cc", "src/evolve/solver_trotter3.cc", "src/evolve/trotter_unitary.cc", "src/hamiltonian/hamiltonian_expected.cc"]}
{"id": "C135", "title": "Imaginary time evolution finds the energy of the ground state", "statement": "for a Hermitian Hamiltonian of an open chain, an eigenvector g of energy E, and any accuracy e and c > 0: if the total imaginary time n tau is long enough, and the step tau then short enough, every simulation of n steps of Trotter2Solver or Trotter3Solver in which no singular values are dropped, from a state whose squared overlap with g is at least c, ends in a state which does not vanish and has an energy of at most E + e. No state has an energy below the lowest eigenvalue. So from any state which is not orthogonal to the ground state the energy converges to that of the ground state.", "quantifier": "every open chain, Hermitian nearest-neighbour Hamiltonian, eigenvector, overlap, accuracy and initial state", "why_tests_cant": "Tests use a handful of random chains of small length, dimension and bond size; the claim is about every chain length, every per-site dimension, every bond dimension and every tensor content.", "anchors": ["src/evolve/solver_trotter2.cc", "src/evolve/solver_trotter3.cc", "src/evolve/trotter_unitary.cc", "src/hamiltonian/hamiltonian_expected.cc"]}
{"id": "C136", "title": "ForestRuthSolver in imaginary time", "statement": "with a time step -i tau, ForestRuthSolver evolves in imaginary time as Trotter2Solver and Trotter3Solver do: C134 and C135 hold for it too.", "quantifier": "every open chain, Hermitian nearest-neighbour Hamiltonian, small tau, number of steps and initial state", "why_tests_cant": "Tests use a handful of random chains of small length, dimension and bond size; the claim is about every chain length, every per-site dimension, every bond dimension and every tensor content.", "anchors": ["src/evolve/solver_trotter4.cc", "src/evolve/trotter_unitary.cc: TrotterSolver::Unitary::Unitary"]}
{"id": "C137", "title": "Truncation and the energy in imaginary time", "statement": "Trotter2Solver and Trotter3Solver with a time step -i tau, a Hermitian Hamiltonian of an open chain and the strategy TRUNCATE_EACH_UNITARY with Dmax > 0, with or without normalize, from a state in canonical form that does not vanish: however small Dmax is, no state of a simulation of n steps vanishes, and the energy <P|H|P>/<P|P> of the last state exceeds that of the first one at most by the sum over the steps of C times: tau^2 (Trotter2Solver) or tau^3 (Trotter3Solver), the square root of the error returned by one_step over the squared norm of the state, and the square root of the tolerance with which singular values are dropped without being reported. C and the longest tau depend on H only (and on the number of sites).", "quantifier": "every open chain of two sites or more, Hermitian nearest-neighbour Hamiltonian, small tau, number of steps, sequence of bond dimensions, initial state in canonical form and value of normalize", "why_tests_cant": "Tests use a handful of random chains of small length, dimension and bond size; the claim is about every chain length, every per-site dimension, every bond dimension and every tensor content.", "anchors": ["src/evolve/solver_trotter2.cc", "src/evolve/solver_trotter3.cc", "src/evolve/trotter_unitary.cc", "src/mps/mps_canonical2.cc", "src/hamiltonian/hamiltonian_expected.cc"]}
{"id": "C138", "title": "Truncation with complex time steps", "statement": "Trotter2Solver, Trotter3Solver and ForestRuthSolver with the strategy TRUNCATE_EACH_UNITARY and Dmax > 0, for any Hamiltonian of an open chain (Hermitian or not) and any complex time step dt with |dt| <= r, from a state in canonical form: one_step does not fail, the new state is in canonical form for the next step, it vanishes only if the initial state does, and its distance to the result of the same layers without truncation is at most K (sqrt(error returned) + |P| sqrt(tolerance)); its norm is at most K |P|; if Dmax is at least the dimension of the space of states, the error returned is at most K |P|^2 times the tolerance. Here K depends on H, r and the chain only. In a simulation of n steps with n |dt| <= T and Im dt <= 0, the distance of the last state to the solution of the Schroedinger equation at the time n dt is at most C times the sum over the steps of |P_i| (|dt|^p + sqrt(tolerance)) + sqrt(error returned), with p = 2 for Trotter2Solver and p = 3 for Trotter3Solver.", "quantifier": "every open chain, nearest-neighbour Hamiltonian, complex time step, sequence of bond dimensions, number of steps and initial state in canonical form", "why_tests_cant": "Tests use a handful of random chains of small length, dimension and bond size; the claim is about every chain length, every per-site dimension, every bond dimension and every tensor content.", "anchors": ["src/evolve/solver_trotter2.cc", "src/evolve/solver_trotter3.cc", "src/evolve/solver_trotter4.cc", "src/evolve/trotter_unitary.cc", "src/mps/mps_canonical2.cc"]}
{"id": "C139", "title": "MPS_DO_NOT_TRUNCATE keeps the state", "statement": "with the strategy MPS_DO_NOT_TRUNCATE, one_step of Trotter2Solver changes the state by no more than rounding (a small multiple of MPS_TRUNCATE_EPSILON in squared norm) beyond the exact product of its layers, whatever tensors represent the state.", "quantifier": "every state of an open chain, every representation of it by tensors, every Hermitian nearest-neighbour Hamiltonian and time step, every MPS_TRUNCATE_EPSILON in (0,1)", "why_tests_cant": "Tests use a handful of random chains of small length, dimension and bond size; the claim is about every chain length, every per-site dimension, every bond dimension and every tensor content.", "anchors": ["src/evolve/solver_trotter2.cc: one_step", "src/evolve/trotter_unitary.cc: apply, apply_onto_two_sites", "src/tools/truncate.cc: where_to_truncate"]}
{"id": "C140", "title": "Imaginary time evolution with truncation finds the ground state energy", "statement": "Trotter2Solver and Trotter3Solver with a time step -i tau, a Hermitian Hamiltonian of an open chain and the strategy TRUNCATE_EACH_UNITARY with Dmax > 0: for every eigenvector g with eigenvalue E (so, in particular, the ground state) and all c, eps > 0, when the total time T = n tau is long enough, then tau short enough and the truncation errors small enough (the sum over the steps of the square root of the error returned plus |P_i| times the square root of the tolerance is at most eta |P_0|), every simulation from a state in canonical form whose squared overlap with g is at least the fraction c ends in a state that does not vanish and has energy per norm E + eps at most. With or without normalize the same holds when the errors are measured relative to the squared norm of each state. The bounds on tau and eta do not depend on the tolerances. If Dmax is at least the dimension of the space of states, small tolerances suffice, however the state evolves.", "quantifier": "every open chain, Hermitian nearest-neighbour Hamiltonian, eigenvector, overlap, accuracy, sequence of bond dimensions, tolerance and initial state in canonical form", "why_tests_cant": "Tests use a handful of random chains of small length, dimension and bond size; the claim is about every chain length, every per-site dimension, every bond dimension and every tensor content.", "anchors": ["src/evolve/solver_trotter2.cc", "src/evolve/solver_trotter3.cc", "src/evolve/trotter_unitary.cc", "src/mps/mps_canonical2.cc", "src/hamiltonian/hamiltonian_expected.cc"]}
{"id": "C141", "title": "Asking minimize for the gap does not change the result", "statement": "minimize(H, &psi, opt) and minimize(H, &psi, opt, constraint, value, other) return the same energy and the same state (or the empty state) with opt.compute_gap = true and with opt.compute_gap = false. (Violated: with Dmax = 0, or with a constraint, the call of the eigenvalue solver for the gap overwrites the flag that tells whether the solver converged for the state. If it does not converge, the state is lost; if it converges, a vector the solver gave up with is returned as the result.)", "quantifier": "every open chain, Hamiltonian, state, constraint and value, list of orthogonal states, options, and behaviour of the eigenvalue solver", "why_tests_cant": "Tests run a solver which always converges, on a handful of chains; the claim is about every outcome of every call of the solver.", "anchors": ["src/dmrg/minimizer.cc: Minimizer::single_site_step, two_site_step", "include/mps/minimizer.h: MinimizerOptions"]}
