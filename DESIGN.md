# Formal model of qosy in Lean 4 — design

Source modelled: `/repo/qosy/*.py` (ClarkResearchGroup/qosy, pinned commit, read as text).
Model, specification and proofs: `/verif/lean/Verif/`.  Property list: `properties.jsonl`.
Status per property: `MANIFEST.json`.  Mutation log: `seeded/LOG.jsonl`.

## 1. Layout

| directory | content |
|---|---|
| `Verif/Coef.lean` | coefficient domain (class `Coef`, executable Gaussian rationals `QI`, `ℂ`) |
| `Verif/Model/*.lean` | the model of the code, function by function, each definition citing file and lines |
| `Verif/Spec/*.lean` | small independent specifications (operator algebras, cliques, parity, ...) |
| `Verif/Lemmas/*.lean` | helper lemmas |
| `Verif/Props/*.lean` | the property theorems `Cxx_...`, refutations, and non-vacuity examples |

## 2. Modelling decisions (trusted base)

* **Kernel and axioms.** Lean 4.33 kernel; theorems use at most `propext`, `Classical.choice`,
  `Quot.sound`.  No axioms are added; no `sorry`, `native_decide`, `bv_decide`.
* **Numbers.** Python/numpy complex floats are modelled by exact numbers: a class `Coef K` of fields with
  conjugation, an imaginary unit and an embedding into `ℂ`.  Instances: `QI` (Gaussian rationals, computable;
  every finite Python complex float is one) and `ℂ` (needed for square roots).  Rounding is *not* modelled.
  Tolerance tests (`abs(c) < tol`) are modelled exactly as comparisons.
* **Labels** are unbounded integers `ℤ` (Python ints; numpy int64 overflow not modelled).
* **Exceptions** are values of `Except PyErr`.
* **Dictionaries and sets keyed by `OperatorString`** are modelled by the key equality Python uses:
  same hash and `==`.  `hash` is `hash(self.name)`; we assume the string hash is collision free, i.e. two
  strings are one key iff their names are equal and `==` holds.
* **Set iteration order** is arbitrary in Python; where it matters (`maximal_cliques`) the model takes the
  order/pivot choice as a parameter and theorems quantify over it.
* **External solvers** (`scipy.linalg.eigh`, `eigsh`, `svd`, ...) are parameters; theorems assume only their
  documented exact-arithmetic contract.
* **Operator semantics.** Independent specification: an arbitrary algebra with site operators satisfying the Pauli
  (or Majorana, or fermion) relations.  A string denotes prefactor times ordered product of its site operators.
  Concrete representations exist (proved), so the theorems are not vacuous.

## 3. Properties: what is modelled and how it is proved

| id | model | proof idea |
|---|---|---|
| C01 | `_operation_opstring` in mode product, Pauli | induct over the sorted label union; commute site operators; invariant `prefix(A)·prefix(B) = c·prefix(C)` |
| C02 | same, Majorana with `sort_sign` signs | reorder the concatenated word by insertion sort, sign = number of transpositions of odd elements; then sitewise multiplication |
| C03 | modes commutator, anticommutator | from C01/C02 and the value of `BA`; parity rule |
| C04 | result string invariant | same induction |
| C05 | constructor prefactor rule | reversal sign `(-1)^(n(n-1)/2)` |
| C06 | `_operation_operator` | fold over term pairs, coefficient-function semantics |
| C07 | `Operator` arithmetic | coefficient functions, numpy fancy-index update modelled literally |
| C08 | heap of `Basis` references | refutation by a concrete history; partial theorem for unshared bases |
| C09, C10 | `Basis` as list + index dictionary | invariant by induction over operation histories |
| C11, C12 | `to_vector`, `remove_zeros` | list induction; that `+`, `-`, `*` and `remove_zeros` leave existing objects unchanged is proved for every history of the heap model (`C08_new_objects`, `C10_unchanged`, `C12_unchanged`) |
| C13 | norm over `ℂ` | algebra |
| C14–C16 | `structure_constants`, `liouvillian_matrix`, `commutant_matrix` | loop invariants; `v†L†Lv` |
| C17 | Basis branch of `generate_lie_algebra` with worklist | invariant + termination measure on the finite set of strings |
| C18, C19 | `cluster_basis`, `distance_basis` | combinatorics of `itertools.combinations/product` |
| C20 | Bron–Kerbosch with arbitrary pivot/order | invariant of (R,P,X) |
| C21 | DFS/BFS loops | reachability invariant |
| C22–C26 | `tools.py` | induction |
| C27, C28 | linear algebra over `ℂ` | inner product identities |
| C29–C32 | `conversion.py` | representation-level identities; refutations for the cases where the code fails |
| C33–C35 | text format, hash/eq, constructor | character level model; refutations + partial theorems |
| C36–C41 | `transformation.py` | representation-level homomorphisms |
| C42 | `symmetrize_basis` | refutation by witness; partial theorem for the cases where closure is reached |
| C55, C65 | `symmetrize_lattice` over `ℝ`; the tolerances of `np.allclose` are kept, so the generators have to be separated (`PointGenerators`) | the product loop reaches a set closed under products (finite group); loop invariants for expansion, images and removal of duplicates; refutation by witness |
| C43–C46 | `diagonalization.py` on bit configurations | bit lemmas |
| C47, C48 | matrix assembly | sums over terms; conversion of the quadratic strings by cases; commutators with linear operators |
| C49, C50 | `core.py` with eigensolver oracle; `num_vecs` (sparse `eigsh`) see C90, C91 | null space of `L†L`, and eigenspace of the Hermitian part of a contraction; exact below a positive tolerance that depends on the input, for involutions below 1 |
| C51, C52 | `algorithms.py` | cache invariant by induction over histories; refutation for two operators |
| C58 - C64 | `selected_ci_greedy` and its helpers in `algorithms.py`; eigensolvers, `argsort` and `sqrt` are arguments with a contract (`IsNumerics`) | loop invariant (cache coherent, basis valid, records correct, best is the first minimum); Rayleigh quotient; totality by induction on the remaining steps; non-termination by induction on the fuel |
| C58, C59, C62 (several `com_ops`) | the same model | invariant of the cache: every basis is explored with the first operator first, so nothing is recorded for strings that it lacks (`Explored.Only`); the other operators count with their parts in the first one (`Operator.within`) |
| C53 | `lattice.py` over any ordered field; the text key of a position is a function `render`, assumed injective on the images of the orbitals (`Resolved`; shown for decimal rounding of cubic and kagome cells) | enumeration bijection; dictionary invariant by induction over the nested loops |
| C54 | `Lattice.distance` over `ℝ` with the Euclidean norm | minimum over the boundary vectors; for orthogonal vectors the squared length splits by direction |
| C56 | the code after `sla.schur` | contract on the Schur form; column exchange is a permutation within each block; refutation for misaligned blocks |
| C66 | `sparsify`; `sla.lu` and `argsort` are parameters | the unit lower triangular factor has independent columns, and the upper one puts the given vectors into their span; dimension count |
| C70 - C72 | `swap`, `replace`, `argsort` of tools.py on lists of characters; `str.replace` and the alternation of `re.sub` are modelled as scans from the left | induction over the text; the scan finds the longest key because the keys are sorted by length; refutations by witness |
| C73 | `space_group_symmetry`; `R` and `d` exact | every image is found by C53; images of different orbitals differ because only periods are mapped to periods |
| C74 - C76 | `spin_flip_symmetry`, `spin_parity_symmetry`, `time_reversal` with spin | C70 gives the partner of an orbital; signs of words are counted; time reversal is the product of three sign rules; the antiunitary map is built with `1 + γ_d γ_u` |
| C77 | Operator branch of `generate_lie_algebra`, with its `Projector` class | loop invariant: the columns of the projector are an orthonormal basis of the span of the trimmed coefficient vectors; the dimension of the span bounds the number of steps; commutators are read as operators in any representation |
| C78 | `relabel_orbitals` on character lists, with the lattice model and `replace` | the substitution relation of C71 is unique; a text is cut into pieces that contain no label and mentions; the longest label wins because a digit never follows a mention |
| C79 | `print_operators`, `print_vectors`, `Operator.__str__`, `Basis.__str__` | the text is a list of lines without line breaks, so splitting and filtering lines is filtering terms; C13 gives the scale |
| C80 | `renyi_entropy` on the arrays of C46, the logarithm with values in the extended reals | traces of powers are sums of powers of eigenvalues; `tr (M M†)ᵏ = tr (M† M)ᵏ`; a density matrix with `tr ρ² = 1` has rank one; power means for the order |
| C81 | `diagonalize`: conversion, matrix, eigensolver, sorting; the eigensolvers are arguments with a contract (`Eigensolvers.Exact`, met by `exists_exactEigensolvers`) | C32 and C43 give the matrix up to a shift; Courant-Fischer by induction on the number of vectors; strings other than the identity have no trace, so the shift is the mean |
| C82 | `diagonalize_quadratic_tightbinding`, `diagonalize_bdg` after the matrices of C48 (`sigma` unused), with the eigensolvers of C81 | particle-hole symmetry and the variational principle put the lower half of the spectrum below zero; eigenvectors of opposite energies are orthogonal; spectral decomposition of the matrix inserted into the quadratic form |
| C83 | `selected_ci`, `selected_ci_simple`, `selected_ci_sweep`, `selected_ci_greedy_simple` up to the commutant matrix; what follows is an arbitrary function | invariant of the loops (nothing found); the expanded basis by `explore_full`; the first lookup fails |
| C84 | `selected_ci_greedy_many_ops` as a loop over the model of `selected_ci_greedy` (C58) with the shared cache | invariant of the two loops: replaced operators are records, the others are the old ones, and the cache is coherent |
| C85 | `selected_ci_greedy_many_ops2` with its random numbers as a parameter | invariant of the loop: cache, basis, coefficient vectors; eigenpairs of the commutant matrix are orthonormal and the first one minimises the Rayleigh quotient; totality by induction on the steps |
| C86 | `_ladder_operators` with `nla.svd`, `nla.eigh`, `np.argsort`, `sparsify` as parameters (`IsLadderNumerics`) | the Liouvillian over the strings common to basis and commutators is Hermitian; eigenvectors with positive eigenvalues have a partner (conjugation); scatter and combination keep orthonormality; refutations by Gaussian rational tables |
| C87 | `_inverse_ladder_operators` with the same parameters | the commutator of a combination of the basis with `R` is the Liouvillian applied to its coefficients; `M P M = M` makes the pseudo-inverse solve every solvable system; refutations by Gaussian rational tables and, for the null operators, for every choice of the routines by a dimension count |
| C88 | the expansion steps of `selected_ci_greedy` (`greedyExpandH`, `greedyExpandO`) and of `selected_ci_greedy_many_ops2` (`many2Expand`) | the columns of the Liouvillian expand the commutator (`LiouvilleOK`); `np.argsort` sorts, so a prefix of the sorted terms is a set of strongest ones; invariant of the insertion loop: the strings inserted so far are the strongest new ones |
| C89 | `selected_ci_greedy` with `transformations` (`closeUnderTransformations`, `symmetrizeComMatrix`) | closure: invariant of the worklist (strings before the position have their images in the basis) and minimality by induction; penalty: for a signed permutation matrix `M` of a closed basis `M + Mᵀ` gives `‖Mw - w‖²`; Rayleigh quotient for the least value; termination on finitely many strings |
| C90, C91 | `num_vecs` of `commuting_operators` and `invariant_operators` (Model/Lanczos), `eigsh` as oracle that may raise | the vectors with eigenvalue below the tolerance among the k nearest to the shift; completeness: a null vector minus its projection is a null vector orthogonal to all k, so all k are as near to the shift as 0, hence selected, hence a warning; C91: the shift ±1 is an eigenvalue if and only if an operator with the symmetry exists |
| C92 | noncumulative mode of `SymmetricOperatorGenerator` with `num_vecs` (Model/GeneratorVecs) | C90 for the first symmetry, then the steps of C67; failure: the intersection of two spaces of orthonormal vectors has at most as many vectors as the second, so the projected matrix is too small for `eigsh` |
| C94 | `to_operator` | C44; refuted: the call of `to_vector` lacks an argument |
| C95 | `diagonalize_bdg` with `sigma` and `num_vecs`: shift-invert mode of `eigsh` as an argument with a contract | the inverse of a particle-hole symmetric matrix is particle-hole symmetric, so that for `sigma=0` enough of the pairs found are negative; commutators with the operator act on coefficients as the matrix, which makes them eigenvectors |
| C96 | `__eq__` of strings, bases and operators | the dictionary comparison forces the same strings at the same positions |
| C97 | `conversion_matrix` in both directions | both matrices preserve the denoted operator up to the identity; Pauli and Majorana strings together with the identity are linearly independent |
| C98 | `convert` and the brackets of strings | both sides denote the same operator under Jordan-Wigner, canonical strings are linearly independent |
| C99 | laws of `product`, `commutator`, `anticommutator` | exact denotation (C01-C03, C06), ring identities, independence of canonical strings |
| C100 | `diagonalize`, `diagonalize_quadratic_tightbinding`, `diagonalize_bdg` (C81, C82) together | a vacuum and the states with any choice of occupied modes, orthogonal eigenvectors; two complete orthogonal families of eigenvectors have the same characteristic polynomial, hence the same eigenvalues; zero modes are replaced by fermions made of vectors invariant under the particle-hole transformation; the shift of Fermion energies is the trace |
| C101 | `diagonalize` (C81) together with `label_permutation`, `time_reversal`, `particle_hole`, `convert` (C32, C36, C38, C39) | powers of a sum of strings are the same sums of strings in every representation, and strings other than the identity have no trace, so normalised traces of powers do not depend on the representation; power sums determine eigenvalues with multiplicities (Lagrange interpolation); the lowest eigenvalues are unique by the min-max principle |
| C102 | the string symmetries (C36–C39), `symmetry_matrix` (C41), `commutant_matrix` (C16), `commuting_operators` | the images of strings are the strings of another representation (permuted, particle-hole) or of the opposite algebra (reversed), so brackets of strings are carried to brackets up to a sign; strings are independent, so this extends to Operators; the Gram form of the commutant matrix is invariant, hence by polarization the matrices commute; commuting matrices preserve the selected eigenspaces |
| C103 | `liouvillian_matrix`, `structure_constants` (C14, C15), `commutator` (C06) | the columns are the coordinates of brackets, strings are independent, so identities of brackets in a faithful representation are identities of coordinates (`StrAlg.coefT_eq`) |
| C104 | `_ladder_operators_original` with `nla.eig`, `nla.eigh`, `np.allclose`, `nla.norm` as parameters (`IsOriginalNumerics`) | on a closed basis the square matrix is Hermitian, so eigenvectors with positive eigenvalues are orthonormal, all of them are null vectors of the zero overlap matrix, and the compression of the matrix to their span has the same eigenvalues; refutations by Gaussian rational tables |
| C105 | `apply_transformation`, `reduced_density_matrix` of one vector and of pairs, `renyi_entropy`, `to_matrix`, `cluster_basis`, `label_permutation` (C18, C43-C46, C80) | reindexing the sums of the partial trace by the permutation of the configurations; the strings of the complete cluster basis expand every matrix (Pauli expansion), the coefficients are expectation values by C46; eigenstates by C45 |
| C106 | `liouvillian_matrix`, `commutant_matrix`, `structure_constants`, `symmetry_matrix`, `commuting_operators`, `invariant_operators` with a Basis or a list of Operators (C23, C41, C49, C50) | `LinearCombinations x y U` says that the coefficients of the elements of `y` are those of combinations of elements of `x`; the coefficients of a string in a column of the Liouvillian matrix are unique (linear independence), so they combine in the same way; the null space is characterised by the commutator (C49), which is linear |
| C107 | `commuting_operators` (C49) and `_operation_operator` (C21) | `x o = ± o x` and `y o = ± o y` give the sign of `x y`; conjugation: the entries of the Liouvillian matrix of a real operator are imaginary, so its null space is closed under conjugation |
| C108 | `space_group_symmetry` (C73), `Transformation.__mul__`, `__pow__` (C40), `symmetry_matrix` (C41) | a symmetry moves every orbital to the one at the transformed position modulo periods, which is unique, so products of symmetries give products of label permutations; these determine the Transformations on all strings |
| C109 | the default values of optional arguments, as default values of the model's functions | the properties C15, C16, C18, C49, C50, C68, C80 and C81 for these values, stated without naming them |
| C110 | `ladderOperators`, `commutingOperators`, `applyTransformation` together with `diagonalize` | C49, C86 and C45 give commutators with the matrix of H; C81 and orthogonality of eigenvectors give the energies listed; exact singular value decompositions are constructed for the example |
| C111 | `timeReversal`, `particleHole`, `labelPermutation` together with `diagonalize` | an antiunitary map of states that squares to -1 gives an invertible antisymmetric matrix on each eigenspace, which has even size; anticommuting invertible matrices on each eigenspace have even size; C101 and the moments of the energies give the symmetric energies |
| C112 | `selectedCiGreedy` together with `commutingOperators` | the structure constants are imaginary, so the commutant of a real operator has a real basis; a real commuting combination makes the least norm (C59) zero; C49 for small tolerances |
| C113 | `Operator.add`, `smul`, `neg`, `norm` together with `diagonalize` | eigenpairs of multiples and shifted matrices; Weyl's inequality by counting dimensions; strings are orthogonal with respect to the trace, and Hermitian with square one |
| C114 | `convertString`, `convertOperator` together with `commutantMatrix`, `commutingOperators(Vecs)`, `generateLieAlgebra`, `Operator.norm` | both kinds of strings denote matrices on the same states; inner products of coefficients are traces; each Lie algebra is the smallest closed set, so corresponding generators give corresponding sets |
| C115 | `sortSignMethod`, `removeDuplicates`, `Operator.removeZeros`, `gramSchmidt`, `convertOperator`, `generateLieAlgebra` | results satisfy the condition under which the operation is the identity; the loop of `generateLieAlgebra` only appends, and its result is the smallest closed set |
| C116 | `Transformation.apply` of products of `labelPermutation`, `timeReversal`, `particleHole` together with `commutantMatrix`, `commutingOperators(Vecs)`, `generateLieAlgebra`, `Operator.norm` | the transformations send strings to signed strings, respect brackets up to a common sign and keep inner products of coefficients |
| C117 | `commutingOperators`, `invariantOperators`, `diagonalize` with an arbitrary eigensolver whose answer satisfies `NearlyEigh` (`Spec/Rounding.lean`) | perturbation bounds for the selected columns in operator norm; the number of columns by injective maps in both directions between their span and the exact commutant; eigenvalues by comparison with an exact eigenbasis |
| C118 | `commutingOperators`, `invariantOperators`, `removeZeros`, `truncateBasis`, `clusterBasis`, `distanceBasis`, `selectedCiGreedy` with two values of a parameter | monotonicity of filters and prefixes; membership characterisations C18, C19; induction on the loop of the shorter search |
| C119 | `invariantOperators`, `Transformation.mul`, `Transformation.pow` | C50 describes the spaces found; C40 gives the product; Transformations by signs respect and reflect multiples; induction on the power |
| C120 | `commutingOperators`, `Operator.add`, `Operator.smul`, `operationOperator` | C49 describes the spaces found; the denoted operators of sums and products; signs of the modes multiply |
| C121 | `operationOpString`, `operationOperator`, `commutingOperators` | site operators of different orbitals commute or anticommute in every representation, induction over both words; C03 turns the zero bracket into the answer of the code; C49 for the search |
| C122 | `productS`, `commutatorS`, `anticommutatorS`, `commutingOperators`, `generateLieAlgebra` | exchange of single letters in every representation, induction over both words; C03 and C05 turn the sign into the answer of the code; C49 and the independence of strings for the search; C17 for Lie algebras |
| C123 | `diagonalize`, `Operator.norm` | the square of such a sum is the square of the norm (C122 and induction over the terms); C81 gives eigenpairs, C113 the sum of the energies |
| C124 | `diagonalize` | the strings commute (C122), so every eigenspace contains a common eigenvector (induction over the strings) |
| C93 | cumulative mode of `SymmetricOperatorGenerator` with `num_vecs` (Model/GeneratorVecs) | loop invariant over the symmetries, with the accumulated warning; for a Transformation a result means that no operator has the symmetry (C91) |
| C67 - C69 | `SymmetricOperatorGenerator` (both modes; `num_vecs` see C92, C93) | composition of C49/C50, C26-C28 and C66; loop invariants over the list of symmetries; refutations for an eigensolver that returns the standard basis for the zero matrix |
| C57 | the loops filling `eigvecs_Fermion` | invariant: row `2N-2` stays zero; for one orbital by computation |

No property of the list is outside what an executable model can express; rounding and the internals of LAPACK/ARPACK are.

## 4. Contracts of the numerical libraries

They are hypotheses of the theorems that use them, never axioms.  Each is shown to be satisfiable by an `example`.

| routine | contract | where |
|---|---|---|
| `nla.eigh`, `sla.eigh` | `D U = U diag(E)`, `U† U = U U† = 1`, real `E` | `IsEigh` (Spec/LinAlg), C26-C28, C49, C50 |
| `nla.pinv` in `symmetry_matrix` | `C P C = C`; for C50 also `C P` Hermitian | Spec/Core (`IsPinv`, `exists_isPinv`) |
| `ssla.eigsh(k, sigma)` in `core.py` | for Hermitian matrices: an exception if `sigma` is an eigenvalue (the factorisation of `matrix - sigma` is singular) or `k >= n`; a result if `0 < k < n - 1` otherwise; any result consists of `k` orthonormal eigenvectors nearest to `sigma` (`ExactEigsh`, met by `exists_exactEigsh`). In floating point a singular matrix may pass unnoticed | Spec/Lanczos, C90, C91 |
| `nla.eigh`, `ssla.eigsh` in `selected_ci_greedy` | orthonormal eigenvectors, all (smallest first) or `k` of them including the smallest, real for real matrices (`IsNumerics`, met by `exists_numerics` over ℂ, by `diagNumerics` over Gaussian rationals for diagonal matrices, by `tiltedNumerics` for a family of 2×2 matrices) | Spec/Greedy, C58-C62 |
| `sla.schur(output='real')` | `A = Z T Zᵀ`, `Z` orthogonal, blocks aligned (`IsSchur`) or at any position (`IsRealSchur`) | Spec/Quadratic, C56 |
| `np.argsort(np.abs(v))` | a permutation of the indices that sorts the magnitudes, ties in any order (`IsArgsort`) | Spec/Algorithms, C52 |
| `sla.lu(permute_l=True)` | `A = (P L) U`, `L` unit lower triangular with `min(n, k)` columns, `U` upper triangular (`ExactLu`, met by `exists_exactLu`) | Spec/Sparsify, C66 |
| `np.sqrt` | exact square root in `ℂ` | C13, C27 |
| `nla.svd`, `nla.eigh`, `nla.pinv`, `np.argsort`, `np.sqrt`, `sparsify` in the ladder operator functions | singular values and right singular vectors, eigenpairs, `M P M = M`, sorting, exact root, normalised combinations with the same span (`IsLadderNumerics`, met by tables over Gaussian rationals); they may raise exceptions | Spec/Ladder, C86, C87 |
| `nla.eig`, `np.allclose` in `_ladder_operators_original` | normalised eigenvectors, a basis for Hermitian matrices, not necessarily orthogonal (`IsEig`); the entrywise comparison of numpy (`IsOriginalNumerics`, met by `originalTable_ok`) | Spec/LadderOriginal, C104 |
| `nla.eigh`, `ssla.eigsh(which='SA')`, `nla.eig`, `ssla.eigs` and `np.argsort` in `diagonalize` | `eigh` returns all eigenpairs of the Hermitian matrix with the given lower triangle; `eigsh` returns `0 < k < n - 1` orthonormal eigenvectors with the smallest eigenvalues and fails for `k >= n - 1` (all matrices are complex, so it calls `eigs`, which refuses sparse matrices then); with `sigma` those with the smallest `1 / (λ - sigma)`, and it fails if `matrix - sigma` is singular; `eig` returns `n` eigenpairs that include every eigenvalue; `eigs` returns `k < n - 1` eigenpairs; `argsort` sorts (`Eigensolvers.Exact`) | Spec/Spectrum, C81, C82, C95 |

## 5. Where the code violates the property

Each line is a theorem with a concrete witness, or a theorem that it fails for all inputs of a class.

| theorem | finding |
|---|---|
| C08_refuted, C09_refuted | `Operator` and `Basis` keep a reference to the `Basis` or list passed in, so later updates of one object change the other |
| C50_norm_increasing_refuted | `invariant_operators` keeps eigenvalue 1 of the Hermitian part of the symmetry matrix, so it misses an invariant operator when the transformation increases the norm of some operator of the Basis |
| C27_zero_first_column | `gram_schmidt` never checks the first column: a zero first column gives a division by zero |
| C29_negative_labels | the Jordan-Wigner transformation of a string with negative labels is not the operator |
| C30_identity_fails, C30_zero_fails | conversions whose result is zero or only the identity raise ValueError |
| C32_cluster_refuted | Fermion strings of `cluster_basis` of length three are not the ones `convert` produces, so `conversion_matrix` raises KeyError |
| C32_cluster_gap_refuted | on labels with a gap the conversion of a Pauli string has labels outside the cluster, so `conversion_matrix` raises KeyError |
| C33-C35 refutations | text round trip, hash versus equality, constructor checks |
| C38_complex_coefficients | antiunitary transformations are applied linearly to complex coefficients |
| C40_dropped | `T1*T2` drops coefficient products below 1e-12 |
| C42_refuted_* | `symmetrize_basis` makes one pass only and counts images repeatedly |
| C43_negative_label | negative labels are accepted by `to_matrix` |
| C47_fermion | the conversion in `diagonalize_quadratic` drops a constant, so `constant_shift` is off by it |
| C51_refuted | `_explore` marks a basis as explored after the first operator, so with a second operator it returns an empty matrix (what `selected_ci_greedy` does with several `com_ops`) |
| C53_one_period_only | `Lattice.index` wraps positions by one period only; the docstring promises any period |
| C54_refuted | `Lattice.distance` looks at neighbouring images only, which is not the minimum for skewed lattice vectors |
| C56_refuted | `diagonalize_quadratic` assumes Schur blocks aligned at even rows; zero modes shift them |
| C58_refuted | the norm that `selected_ci_greedy` reports contains the penalty for `transformations` |
| C58_refuted_target, C58_refuted_target_orth | with a target operator and several `com_ops` (or `orth_ops`) the reported norm is the average of the norms of the eigenvectors; these are not eigenvectors of the commutant matrix of the first operator, so the cross terms are missing |
| C63_refuted | with `transformations` a step adds all images of the strings, more than `num_H_terms + 2 num_O_terms`, also beyond `max_basis_size` |
| C59_refuted | with several `com_ops` the others act only through the strings that they share with the first one (cache, see C51_refuted; `C58_several_pauli_partial` says what is minimised instead) |
| C91_refuted, C91_singular | `invariant_operators` with `num_vecs` uses the shift `sigma = ±1`, which is an eigenvalue of the symmetry matrix exactly if there is an operator to be found; the shift-invert mode then factors a singular matrix and raises an exception (`commuting_operators` uses `sigma = -1e-6` for this reason) |
| C92_refuted, C92_second_fails | the noncumulative mode raises an exception if the second symmetry was added with `num_vecs`: `eigsh` is asked for `num_vecs` eigenvectors of the projected matrix, which has at most `num_vecs` rows |
| C94_refuted | `to_operator` always raises TypeError: it calls `to_vector` without its third argument |
| C60_refuted | the next operator of `selected_ci_greedy` gets the coefficients of other strings (line 1027 looks up positions of the truncated basis in the untruncated vector) |
| C61_refuted | with `orth_ops` the norms are recomputed without the penalty and re-sorted, so an operator in `orth_ops` can come first |
| C62_refuted | with `target_fidelity` the step is repeated for ever once all eigenvectors are used |
| C55_refuted | `symmetrize_lattice` with a single generator of order three or more uses only the identity and the generator |
| C65_refuted | the expansion loop of `symmetrize_lattice` starts from the original lattice in each direction, so only the last direction is expanded and atoms are lost |
| C66_refuted, C66_too_many | `sparsify` makes the span of dependent vectors larger, and raises IndexError for more vectors than dimensions |
| C67_refuted | with `orthogonalization=True` the noncumulative mode overwrites columns of the earlier results, so an operator with the first symmetry is lost |
| C68_refuted | with the default options (`sparsification` without `orthogonalization`) the cumulative mode works in a basis that is not orthogonal; a Transformation as second symmetry then finds no invariant operator although there is one |
| C68_empty | the cumulative mode raises IndexError for an empty basis and two symmetries |
| C69_refuted | a second `generate()` in the noncumulative mode projects the results of the first call again, so operators without the later symmetries are returned |
| C70_refuted, C70_nested_refuted, C70_empty_refuted | `swap` loses parentheses around a name, fails if one name contains the other, and inserts the other name everywhere if one name is empty |
| C71_refuted | `replace` with an empty dictionary raises KeyError |
| C72_comparison_refuted | `argsort` passes indices instead of elements to the comparison function |
| C73_refuted | `space_group_symmetry` does not check that different orbitals have different images: the rotation by 90 degrees of a periodic 2 by 3 lattice is accepted and gives strings with repeated labels |
| C74_refuted | orbitals named `s (Up)` and `s (Dn)` raise ValueError in `spin_flip_symmetry`, because `swap` loses the parentheses |
| C77_refuted | `generate_lie_algebra` with the default tolerance compares the squared norm of the new part with the tolerance, so directions up to 1e-6 are lost: from X1, Y1 and Z1 + 1e-7 Z2 it returns these three operators although Z1 is missing from their span |
| C78_refuted | `relabel_orbitals` reads a label that is not in the lattice as a shorter one: with 4 orbitals `X 12` becomes `X_{(0,); 0; Dn}2` |
| C78_empty | `relabel_orbitals` with a lattice without orbitals raises KeyError |
| C79_nothing | `print_operators` with the maximum norm raises ValueError for an operator without terms above the tolerance |
| C81_refuted | `diagonalize` converts with `include_identity=False`, so the mean of all energies is subtracted for Fermion operators: the number operator of one orbital gets the energies -1/2 and 1/2 |
| C81_refuted_nonhermitian | `diagonalize` in its default mode reads the lower triangle only: `1j * Z_0` gets the eigenvalues 0, 0 |
| C82_refuted | `diagonalize_bdg` does not pair zero modes: for the zero operator an exact eigensolver may give `f = (c ± c†)/√2`, which is not a fermion |
| C95_refuted | `diagonalize_bdg` takes absolute values of the energies: with `sigma > 0` it may return creation operators as if they were annihilation operators (`c†_0` for `n_0 + 2 n_1` and `sigma=1.5`) |
| C97_empty | `conversion_matrix` with an empty source basis calls `ss.csr_matrix` without its first argument: TypeError instead of an empty matrix |
| C83_refuted, C83_refuted_nothing_found, C83_refuted_pauli, _majorana, _simple | `selected_ci`, `selected_ci_sweep` and `selected_ci_greedy_simple` index the matrix of `_explore` with an operator string (IndexError); `selected_ci_simple` calls `liouvillian_matrix`, which is not imported (NameError); if nothing new is reached `selected_ci` returns the initial operator with an infinite norm |
| C84_refuted, C84_refuted_list | the operators of `selected_ci_greedy_many_ops` need not be orthogonal: `selected_ci_greedy` sorts by the norms without the penalty of `orth_ops`, and takes the first again; a list of `max_basis_size` is passed on to `_truncate_operator` in the second step (TypeError) |
| C85_refuted, C85_refuted_exceptions | `selected_ci_greedy_many_ops2` recomputes the norms with the matrix that contains the penalty of `orth_ops` (norm 10¹⁰ for a commuting operator); IndexError if the basis has fewer strings than operators, also after truncation; TypeError for lists of `max_basis_size` |
| C86_refuted, C86_refuted_missing | `_ladder_operators`: if the commutators leave the basis, strings that never appear in a commutator are dropped from the projection, so operators that are no ladder operators are returned; null vectors beyond the number of singular values are ignored, so ladder operators are missed |
| C87_refuted, C87_refuted_null | `_inverse_ladder_operators`: the particular solution is never checked, so operators without the given ladder operator (even without terms) are returned; null vectors beyond the number of singular values are ignored |
| C104_refuted, C104_refuted_values | `_ladder_operators_original`: ladder operators with different values are combined so that the strings outside the basis cancel, and the combination is returned with the mean value; the eigenvectors of `nla.eig` are used as if they were orthogonal, so the reported values are wrong for degenerate eigenvalues |
| C57_refuted | `eigvecs_Fermion` is singular for two or more orbitals (index `2*n+1` in place of `n+N`) |

## 6. Not modelled

Floating-point rounding (except for bounds on the error of the eigensolver in C117), the internals of the numerical libraries, printing and plotting.  Function by function:

- `algebra.py`: `_killing_form`, `_generate_center` (both raise NotImplementedError at once)
- `algorithms.py`: the code of `selected_ci`, `selected_ci_sweep` and
  `selected_ci_greedy_simple` after the commutant matrix, which is never reached (C83; it is an arbitrary continuation in the model)
- `tools.py`: `cmp_to_key` (its use in `argsort` and in the sorting of clusters is modelled), `project_out_nullspace` (refers to undefined names, so every call raises NameError)
- `visualization.py`: the plotting functions
- the `__str__` method of `Lattice`
