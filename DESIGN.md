# Formal model of juanjosegarciaripoll/mps in Lean 4 — design

## 1. What is modelled and how

The code base is a C++ numerical library: almost every function is a short straight-line
composition of calls into the external `tensor` library (`fold`, `foldin`, `permute`,
`reshape`, `trace`, `svd`, ...), plus loops over the sites of a chain.  The model keeps that
shape: `Verif/Tensor.lean` defines a small total model of the tensor library and every modelled
function of mps is transliterated line by line on top of it, with a comment citing the C++ file
and lines.

* **Scalars.** `double`/`complex<double>` become an arbitrary commutative ring with an involution
  (`[CommRing R] [StarRing R]`): `R = ℝ` with trivial `star` for the `R…` classes and `R = ℂ` for the
  `C…` classes; one model covers both template instantiations.  Where the code needs `sqrt`, `abs`,
  order or division the model is over `ℝ`, or over Mathlib's `RCLike 𝕜` (ℝ or ℂ).
  *Not modelled*: floating-point rounding, overflow, NaN.
* **Tensors.** `Tensor R` = list of dimensions + function from multi-indices to `R`; flat storage is
  column major (first index fastest) and only visible through `reshape`.
* **Undefined behaviour / aborts.** Functions of mps that call `abort()`, `assert`, `exit` or that
  would index out of range return `Option` (`none` = the process dies or is undefined) wherever the property is about
  that; dimension agreement inside the tensor library is an explicit well-formedness hypothesis
  (`WF`), which is shown to be satisfiable by examples and to be preserved by the modelled operations.
* **SVD, eigen-solvers, random numbers** are parameters of the model.  SVD is assumed to satisfy its
  mathematical specification (`A = U diag(s) V`, isometries, `s ≥ 0` sorted) — a hypothesis of the theorems
  (`SVDSpec`), never an axiom.
* **Mutation through references / pointers** becomes returning the new value; loops become structural recursion
  or folds; unbounded loops get a fuel argument.

## 2. Trusted base

* Lean 4.33 kernel, Mathlib's definitions of `Finset.sum`, `ℝ`, `ℂ`, `Complex.exp`, `Real.sqrt`...
* Axioms: only `propext`, `Classical.choice`, `Quot.sound` (see section 6).
* The reading of the C++ text (no code is executed), and the following semantics of the external `tensor` library,
  which is not in the sandbox (deduced from its use and comments in /repo):
  - column-major flat storage; `reshape` keeps flat data; `A(i,j,..)`/`A.at(..)` index access
  - `fold(A,i,B,j)`: contracts index `i` of A with `j` of B; remaining indices of A, then those of B;
    negative index positions count from the end; `foldc` conjugates A
  - `foldin(A,i,B,j)`: same contraction, the remaining indices of A take the place of index `j` of B
  - `permute(A,i,j)` swaps two indices; `transpose`, `conj`, `adjoint`
  - `trace(A,0,-1)`; `scale(A,i,v)`; `change_dimension(A,i,n)` truncates or zero-pads
  - `kron(A,B)` with B's index fastest; `kron2(A,B)=kron(B,A)`; `kron2_sum` outer sum
  - `sort_indices`, `Indices::range`, `where` etc. as documented

## 3. Specification language

`Verif/Spec.lean` holds the whole independent specification vocabulary:
* `amp ψ s` — amplitude `tr(A_0[s_0] ⋯ A_{L-1}[s_{L-1}])` as explicit sums over bond indices;
* `opElt O s t` — matrix element ⟨s|O|t⟩ of an MPO, same way;
* `sumCfg ds F` — sum over all configurations `s_k < d_k`;
* operators on the many-body space as functions of two configurations (`localAt`, products, ...).
Every tensor-network theorem is stated only with these and the API-level model function.

## 4. Plan per property

(id: what is modelled → how it is proved)

* C01 `mps_to_vector` → induction over sites with invariant "partial contraction = partial path sum".
* C02/C03 `prop_matrix`, `prop_matrix_close`, `scprod`, `norm2` → invariant: the 4-index transfer
  tensor equals sum over configurations of conj(path)·path; both senses; closing gives trace.
* C04–C07 expected values → same invariant with operator insertions; `normal_index` with signed ints; the aliasing case of C05 is false → negation with witness + partial theorem.
* C08 apply_local_operator → direct from path sums.
* C09 density_matrix → interior-site theorem for trivially-starred scalars; negations (boundary site undefined, complex case).
* C10–C13 states and shapes → closed-form path sums by induction; violations (GHZ length-1 periodic; `random(dims)`).
* C14–C17 canonical forms → SVD as parameter; gauge-move lemma: replacing (A,B) by (A',B') with equal product keeps amplitudes; isometry invariants of the sweep.
* C18 where_to_truncate → over ℝ, induction on the scan.
* C19 truncate → dims arithmetic.
* C20–C27 MPO construction → "automaton" invariant: every MPO reached is a finite automaton with start state 0, accept state 1 (0 at last site); induction over operations; product-term with all identities is false → negation.
* C28–C36 MPO algebra → path-sum homomorphism lemmas (bond index = pair).
* C37 ConstantHamiltonian → state machine refinement to "last write / list since last reset".
* C38, C39, C40 energies, sparse matrices, decompositions (violations of normalisation).
* C41–C45 Lattice → lists of naturals, bit operations; bipartition search with fuel.
* C46–C48 Fock and spin matrices → over ℝ/ℂ, entrywise.
* C49–C52 Linear/quadratic forms → cache invariant by induction over propagation history.
* C53–C57 control-flow state machines (Sweeper, minimizer, simplify, DMRG argument passing).
* C58–C61 Trotter layers: bookkeeping of generators, coverage, coefficients.
* C62–C65 iTEBD: index reduction, step counting, reference states, entropies.
* C66–C68 size of the lattice Hamiltonian, `entropy`, `largest_bond_dimension` → direct.
* C69–C71, C82 Trotter steps as products of layers, norm preservation, truncation error at the centre, `Dmax` respected → `Trotter*`: every gate is
  `setCanonical2` on a sandwich; a fold over sites whose invariant is "orthogonality centre at the current site, wave function = product of gates".
* C72–C75 Hamiltonian objects, `expected(P,H)`, `sparse_hamiltonian`, operator decompositions → sums of `onSite`/`onTwo` operators.
* C76–C79 `QuadraticForm`, `MPS minimizer` → the eigensolver is a parameter (`GoodEigs`, satisfiable: `exists_goodEigs`); loop invariant "energy of the stored
  state = energy reported, non-increasing"; two-site: distance to a normalised state given by the weight dropped.
* C80, C81, C93–C96 `simplify_obc`, `apply_and_simplify`, `simplify` (one target, many targets, one or two sites) → projection theorem: the environment
  contraction is the gradient of the squared distance (`Proj`, `Proj2`), sweeps keep all other tensors isometric, so the update is the least squares
  solution (`Best`) and the distance cannot grow; caches are proved equal to the environments by an invariant over the sweep (`Caches`, `AllCaches`).
* C56, C97–C99 `DMRG<MPS>::minimize` (`dmrg.cc`) → the blocks `Hl_`, `Hr_` are proved to be the Hamiltonian restricted to the left and right of the current
  site (invariant `LGood`, `RGood` over the sweep), so that the effective operator given to the eigenvalue solver is `⟨·|H|·⟩` as a function of one tensor;
  the two-site eigenvalue problem is an arbitrary function (its result is never stored properly, C56); `orthogonal_to`: simulation that forgets `Proj_`.
* C100 `solve(H,&P,Q,…)` (`inverse.cc`) → normal equations `H†H P = H†Q` restricted to one tensor; the forms are the ones of C76; the solution of the local
  normal equations minimises the local distance (`Local.best`), `err` is the squared distance; the linear solver is a parameter (`GoodSolve`, satisfiable).
* C101 the two-site version: `cgs` is any function returning a tensor of the right size (`SizedCgs`); the value returned belongs to the vector before the pair
  is split, at squared distance at most `lost` from the state; `DescentCgs` gives monotonicity, `IdealCgs` optimality over the last pair (`exists_goodCgs`).
* C102 the same for operators that are not Hermitian → what the code solves is `H†H P = H Q` (`C102_any_operator_partial`); counterexample `C102_violated`.
* C103 `ArnoldiSolver::one_step` (`arnoldi.cc`) → invariant of the loop that grows the basis (`Inv`, `grow_spec`): sizes always; scalar products and matrix elements
  when the canonical forms drop nothing; the calls of `simplify_obc` are those of C80, from any canonical form of the guess (`C80_any_form`).
* C104 → `exp(-i t X)` conserves the two quadratic forms `N`, `N X` when `N X = Heff`; `N X = Heff` has a solution even if `N` is singular (`fredholm`).
* C105 → `N X = Heff` makes `X` the compression of `H` to the span, `comb_pow`; series of the exponential (`comb_evolved`, `comb_order`); three-term recurrence and
  orthogonality by induction for exact bases.
* C106 → generalised eigenvalue problem, `gen_lowest`.  C107 → `C107_phase` for any norm, counterexample `C107_violated`.
* C108 (real states, complex operators) → entrywise cast `Mixed.castMPS`, amplitudes are the casts of the real ones, then the theorems of C04/C05 over ℂ.
* C109 (slow expected values) → the products of transfer matrices are `transferO` of windows (`RepW`), the trace closes a ring, the norms cancel; the limit by
  `C109_limit` from convergence of the transfer matrix (`DiesOut`).
* C110, C111 (boundary vector) → `prop_matrix` keeps a multiple of `transferO` of a window (`TransW`); the power method is a parameter `GoodPower`;
  counterexamples `C111_*_violated` for the empty operators.
* C112, C113 (order of the Trotter solvers) → `vec`/`opMat` turn wave functions and their operators into vectors and matrices; a layer of gates is
  `exp` of a matrix (`layer_exp`), the exact evolution is `exp` of the Hamiltonian (uniqueness of the linear ODE); Taylor expansions in a Banach
  algebra (`TrotterOrder`), telescoping for many steps.
* C114, C115 (Trotter solvers with truncation) → `Cent`: the state is canonical with respect to the site where the sweep is; a truncation removes
  an orthogonal part, so norm² and distance² drop by the same weight (`dist_set`, `gate2`); gates are unitary (`GatesUnitary`), Cauchy–Schwarz
  for the sum of the square roots (`sqrt_step`); the exact evolution as in C113.
* C116 constrained two-site minimisation → the diagonal of the effective constraint is the list of expected values in the block states (C76), so the subspace kept is
  spanned by the allowed block states (`ConstraintSpec`); a Hermitian matrix restricted to a subspace, and the sweep induction of C78 repeated with the form of the
  constraint in the invariant.
* C117 canonical forms with truncation → `split` returns a projection (`splitLeft_proj`), so each `set_canonical` of the sweep leaves the overlap with all
  states that share the new tensors unchanged (`overlap_left`, `overlap_right`), and the weights lost add up; the counterexample is the state `∑|i,i⟩`
  with the weights moved from one tensor to the other, and the Eckart–Young bound for the identity matrix.
* C118 idempotent canonical forms → the singular values of an isometry are all one (`IsSVD.iso_cols`), so `where_to_truncate` keeps all of them when
  `D · tol < 1` (`ones_kept`); the sweep of `canonical_form` meets isometries only, up to a unitary passed along (`loopLeft_iso`, `loopRight_iso`, `form_iso`).
* C119 the `normalize` option of the Trotter solvers → a sweep with `Dmax ≠ 0` ends in canonical form (`sweep_half`), so `normal_form` at the end divides by
  the norm exactly (C118). Violated by `apply_and_simplify`, which reads the flag only if some bond exceeds `Dmax`: two qubits, all states (`call_two`).
* C120 canonical forms are projections → each `set_canonical` of the sweep keeps the overlap with every state that agrees with the result on the isometries
  already built (`loopLeft_proj`, `loopRight_proj`), by induction on the sweep; Pythagoras gives the rest.
* C121, C122 default Trotter strategy → `LayerErr*.lean`, `LayerErrSpec.lean` (`layerState`, `NeverSimplified`), `Props/LayerProps.lean`. A layer
  applied to a state in canonical form at the first site leaves only pairs out of balance; the singular values dropped there are not Schmidt
  coefficients of the state, but the environment of each pair is bounded by the norm (`LBound`, `rNorm`), which gives a factor `D`. The inward
  sweep of `canonical_form(-1)` that follows is a product of projections. ForestRuth is excluded: two of its layers pass Dmax = 0.
* C123 `neigenvalues` > 1 → `DmrgMany*.lean`, `ManyEigsExists.lean`, `Props/DmrgManyProps.lean`. The columns returned by the eigenvalue solver of the last step, put in place
  of the tensor, are orthonormal states that diagonalise `H`, because all other tensors are isometries; the bound by the eigenvalues of `H` is a dimension count (`ritz_upper`).
* C124 conserved quantities → `DmrgQModel.lean`, `Props/DmrgQProps.lean`: the vectors `Qr_` with `at` as a partial function.
* C125 truncation bounds of single-site DMRG → `DmrgTrunc*.lean`, `Props/DmrgTruncProps.lean`. After each step the state is the lowest eigenvector of the site problem, truncated;
  its energy and norm on the line between the two (`energy_line`, `norm_line`) are those of the site problem, and the loss is at most τ of a unit norm.
* C126 `Unitary::apply` with truncation → `ApplyProj*.lean`, `ApplyOpt.lean`, `ApplyStep.lean`, `ApplyInd.lean`, `ApplySweep.lean`, `SchmidtSpec.lean`, `Props/ApplyOptProps.lean`.
  Invariant of the sweep (`Sees`): the block states already swept see the exact result as they see the state; each truncation keeps it, which makes the whole layer a projection
  (this also gives the constants of C114, C115). For the optimality, the competitor is compared with the exact partial result after undoing the remaining gates (`undone`), which
  keeps distance and Schmidt rank at the bond of the gate; Eckart–Young and Bessel bound each truncation.
* C127 `set_canonical_2_sites` as best approximation → `Props/PairOptProps.lean` (Eckart–Young and Bessel's inequality, from `ApplyOpt.lean`).
* C128 truncation and energy in the two-site minimizer → `EnergyLine.lean`, `PairProj.lean`, `Props/MinimizerTruncProps.lean`.
* C129 time reversal → `Props/ReversalProps.lean`, `Props/ReversalProps2.lean` (symmetric layer lists; exponentials of commuting arguments; two qubits; `Trotter2Solver` is not reversible because the layers would have to commute, by the second-order expansion of the exponentials).
* C130, C131 default Trotter strategy with simplifications → `LayerLeft*.lean` (a layer of gates applied from the left on a state whose centre is at the *other* end: contractions instead of isometries), `LayerSimp.lean` (one `apply_and_simplify`, using what C80 proves about `simplify_obc`), `LayerSimp2.lean` (whole steps; with normalisation the quantity `distance + |1 - norm|` is followed), `Props/LayerSimpProps.lean`. The wave functions are compared with `layerSteps` (the exact exponentials of C58) and with solutions of the Schroedinger equation.
* C132 bond dimensions of canonical forms → `Props/BondProps.lean`: every `set_canonical` shrinks the bond it touches (`setCanonical_bonds`), induction over the two loops; an isometry from `b` to `a·d` dimensions has `b ≤ a·d` (rank), so a chain of isometries bounds the bond by the product of the physical dimensions.
* C133 expected values along a simulation → `Props/ObservableProps.lean`: Cauchy–Schwarz with the distance of C131; `energy_chain` shows that what C38 computes is the operator of the Schroedinger equation; the exact exponential commutes with the Hamiltonian.
* C134 evolution in imaginary time lowers the energy → `ImagTime.lean`, `Props/ImagTimeProps.lean`: along the exact flow the Rayleigh quotient decreases (its derivative is minus twice the variance); the local error of C112 changes it by a multiple of the distance.
* C135 imaginary time evolution finds the ground state → `ImagTime2.lean`, `Props/ImagTimeProps.lean`: the overlap with the eigenvector decays exactly like exp(-ET), and log‖ψ‖² has slope −2E(t) with E(t) decreasing, so E(T) ≤ E − log c/(2T); then the global error C113. The lower bound is the Rayleigh–Ritz theorem of Mathlib.
* C136 ForestRuthSolver in imaginary time → `Props/ForestRuthImagProps.lean`: violated; `frHam`, a diagonal Hamiltonian of two qubits, for which all layers and all runs can be computed.
* C137 truncation and energy in imaginary time → `ImagTrunc{,2,3,4}.lean`: a sweep of gates that are not unitary, with truncation: norms, distances and dropped weights in units of a common bound `g` of the gates (short times), and no state vanishes because the exponentials are invertible and a truncation keeps the largest singular value; `Props/ImagTruncProps.lean`: the Rayleigh quotient near the exact flow (`energy_near`), induction over the steps; normalisation by C119, whose theorem now also says that the normalised state is ready for the next step.
* C138 truncation with complex time steps → the same sweeps (`ImagTrunc{,2,3,4}.lean` hold for all times up to a radius `r`); `Props/ComplexTruncProps.lean`: one step, and the telescoped error of a run in the maximum norm, in which the exact flow grows at most like `exp(|dt| rate)`.
* C139 `MPS_DO_NOT_TRUNCATE` → `Props/NoTruncProps.lean`: violated; the state `∑ |i,i,0⟩` of three sites with its weight moved to the third tensor (`lopsided`), the Hamiltonian 0, Eckart–Young for the rank left at the first bond; one layer from a canonical state is bounded with the sweeps of C121 (`sweep_free`).
* C140 ground state with truncation → `Props/GroundTruncProps.lean`, `Props/GroundTruncProps2.lean` (normalize, and runs in which only the tolerances truncate): the simulation stays near the exact imaginary time flow (C138, constants independent of the tolerances), a strong induction bounds the norms, then `flow_ray` and `ray_step` as in C135; `C140_keeping` shows that the condition on the errors is met when only the tolerances truncate
* C141 `compute_gap` of `minimize` → `GapModel.lean` (the minimiser with the additional solver calls), `Props/GapProps.lean`: the runs with and without the option are compared call by call; three violations: on chains of any length (the state is lost), on one site (a solver which gave up is masked), and (`Props/GapProps2.lean`) with a constraint
* C83–C92 infinite chains → windows of `2n` sites of the periodic pattern with arbitrary boundary vectors; canonical form makes the transfer matrix have the
  identity as fixed point, so windows can be extended; `eckart_young` for the optimality of `apply_operator`; eigenvalue solver and `eig_sym` are parameters.

## 5. Known disagreements between code and property (findings)

Each of these is proved in Lean as a theorem with suffix `_violated` (or is part of a `_partial` theorem), and stated in the notes of MANIFEST.json.

| property | what the code does |
|---|---|
| C05 | `expected(P,A,k,B,k-L)`: two spellings of one site are treated as different sites |
| C09 | `density_matrix` uses an unassigned tensor at the first and last site; conjugates the wrong leg for complex states |
| C11 | `ghz_state(1,true)` is not the GHZ state |
| C13 | `RMPS::random(dims,D,periodic)`: wrong shapes, open chains rejected |
| C25, C26 | `add_product_term` drops a product of identities |
| C31 | `adjoint(RMPO)` returns its argument |
| C33 | `CMPO(H)` aborts when a local term is missing, `RMPO(H)` also when `interaction_depth(N-1)>0` |
| C39 | periodic `sparse_hamiltonian`: the bond (last,first) has its factors exchanged and is normalised |
| C40 | `decompose_operator`, `split_interaction` normalise the operators; the latter conjugates the second factors |
| C44 | `Lattice::eigs` uses the transposed hopping, doubles diagonal interactions, drops `U(j,i)` when `U(i,j)=0` |
| C45 | `Lattice::bipartition` does not terminate for 32 or more sites on the right; left part is made of the last sites |
| C52 | `take_single_site_matrix_diag` adds the diagonals (`kron2_sum`) instead of multiplying them |
| C54 | `minimize` with no sweeps returns 1e28; two-site energy is that of the state before truncation |
| C55 | projection of excited states multiplies the overlap by `1-n` (n = norm), conjugates for complex states; `Props/ProjectProps.lean`: for orthonormal projectors the operators of the eigenvalue solver act between two projections |
| C56 | two-site DMRG calls `set_canonical_2_sites` with shifted arguments (sense = tolerance, tolerance = `false`) and a vector instead of a four-index tensor |
| C57, C94 | `simplify`: `sense` not flipped when the stopping rule ends the loop without `normalize`; `normalize` ignored when sweeps run out |
| C63 | `evolve_itime` runs `ceil(nsteps/deltan)*deltan` steps |
| C64 | `infinite_cluster_state` sets `A(0,1,0)` instead of `A(1,1,0)` |
| C65 | `iTEBD::entropy(site)` ignores `site`; for non-canonical states it counts twice |
| C66 | `Lattice::Hamiltonian` with all coefficients zero has no rows |
| C67 | `entropy` of a vector with a zero is NaN |
| C79 | constraints are ignored by the single-site minimiser; the two-site minimiser only looks at the diagonal of the constraint (`C79_two_site_violated`) |
| C117 | `canonical_form` truncates (default tolerance `DBL_EPSILON`) tensors that are not surrounded by isometries: it may lose any fraction of the state (`C117_violated`) |
| C119 | `normalize` (default `true`) is ignored by the strategies EACH_LAYER (default) and GROUPS unless a bond exceeds `Dmax`, and by `Trotter2Solver` without truncation (`C119_violated`) |
| C85 | iTEBD `string_order(i,j)` ends its window inside a cell |
| C88 | `apply_operator` aborts when the two local dimensions differ |
| C98 | `RDMRG` takes the real part of every factor of an interaction: `σy⊗σy` becomes zero |
| C99 | single-site DMRG ignores `orthogonal_to` |
| C124 | `DMRG::minimize(&P)` with `Q_values` throws `out_of_range`; with `Dmax > 0` it fails as in C56 (`C124_single_site_violated`, `C124_two_site_violated`) |
| C107 | `ArnoldiSolver::one_step`: the first element of the effective Hamiltonian and the first Krylov vector are made with `psi` before it is normalised: wrong phases unless the norm of `psi` is 1 |
| C111 | `bdry_string_order` gives `prop_matrix` the address of an empty operator, which is folded: `expected(psi, Op, site)` always aborts, `expected(psi, Op1, i, Op2, j)` unless both sites are those of one cell, `string_order` unless `i` is even and `j` odd |
| C102 | `solve` builds its linear form from `H Q` where `H† Q` is needed: wrong for operators that are not Hermitian |
| C136 | `Unitary::Unitary` uses `-abs(imag(dt))`: in imaginary time `ForestRuthSolver`, three of whose seven coefficients are negative, evolves with about 1.7 H_even + 4.4 H_odd instead of H; the energy can rise in every step (`C136_violated`) |
| C139 | `MPS_DO_NOT_TRUNCATE` truncates: `apply_onto_two_sites` drops singular values below `MPS_TRUNCATE_EPSILON` times the norm of the pair tensor, with `Dmax=0` the state is not canonical, so that a step may lose any fraction of the state, and it returns 0 (`C139_violated`, with the Hamiltonian 0) |

## 6. Axioms

`#print axioms` of all the theorems in MANIFEST.json (regenerated at every milestone): every one depends on a subset of
`[propext, Classical.choice, Quot.sound]`; a few (finite-control properties of `Lattice`, `MPS` index arithmetic) on `[propext, Quot.sound]` or `[propext]` only.
No theorem depends on anything else: there is no `axiom`, no placeholder, and no compiled evaluation in the project.

## 7. What is modelled and what is not

Modelled (file by file; the `_d.cc` / `_z.cc` files are template instantiations of the same text and are covered by the scalar parameter):

* `src/mps`: everything, with `cmps_from_rmps.cc` and the mixed real/complex overloads `mps_expected1_dz.cc`, `mps_expected2_dz.cc` in `MixedModel`.
* `src/mpo`: everything except the printing functions `mpo_dump*.cc`.
* `src/hamiltonian`, `src/quantum`: all files.
* `src/tools`: `bond_dimension`, `entropy`, `flags` (constants), `limited_svd`, `propagate_mps`, `split_tensor`, `sweeper`, `truncate`, `truncate_mps`;
  not `debug.cc`, `dump_*`, `load_*` (file input and output).
* `src/dmrg`: `lform`, `qform`, `minimizer`, `simplify_obc`, `dmrg` (the two-site eigenvalue problem is an arbitrary function, and so are the values of
  the conserved quantities, which only it reads), `inverse`.
* `src/evolve`: all files (`trotter_unitary`, `solver_trotter2/3/4`, `arnoldi`).
* `src/iTEBD`: everything, with `slow_expected.hpp` and `src/tools/build_E_matrix.hpp` in `ITebdSlowModel`, `bdry_expected.hpp` in `ITebdBdryModel`, except `expected/expected.cc` (not compiled) and the trace printed by `bdry_expected.hpp`.

External functions that are parameters of the model, with the hypothesis the theorems put on them (each is shown to be satisfiable, so that no theorem is vacuous):

* `svd`/`block_svd`: `GoodSvd` (factorisation with isometries and non-negative real singular values), `GoodSvd` + sorted for optimality; `exists_goodSvd`, `exists_goodSvd_sorted`.
* `expm`: `GoodExpm` = Mathlib's matrix exponential; `exists_goodExpm`.
* `arnoldi.cc`: `solve_with_svd` = `GoodSolveM`, `expm` = `ExactExpm`, `eig` = `GoodEig`; `exists_goodSolveM`, `exactExpm_matrixExp`, `exists_goodEig`.
* `eigs` (minimiser): `GoodEigs`: smallest eigenvalue of a Hermitian matrix and a unit eigenvector; `exists_goodEigs`.  With several eigenvalues (`dmrg.cc`): `GoodManyEigs`; `exists_goodManyEigs`.  iTEBD's power eigensolver: `EigOk`.
* `solve_with_svd`: `GoodSolve`: solves every solvable linear equation; `exists_goodSolve`.
* `cgs`: `SizedCgs`, `DescentCgs` (never worse than the guess), `IdealCgs` (converges); `exists_goodCgs`.
* `eig_power` (boundary vector, C110): `GoodPower`; `fiveSteps_good`.
* `eig_sym`: `GoodEigSym`; `exists_goodEigSym`.
* `simplify_obc` inside of `apply_and_simplify` in `C82`: arbitrary.
* random numbers: arbitrary functions.

Ghost data: records returned by the models have additional fields that the program does not return (`lost`, `hidden`, `energies`, `errs`, `P0`); they are
written and never read by the modelled code, and theorems use them to state what happened on the way.

Simplifications made everywhere: no floating point (real arithmetic is exact), no aliasing (every call by reference is a value returned), unlimited integers,
no I/O or debug output, `assert` enabled.
