{"id": "C01", "title": "Product of Pauli strings is the operator product", "statement": "For two valid Pauli strings A and B, product(A,B) returns a pair (c, C) with A*B = c*C as operators, in every algebra whose site operators satisfy the Pauli relations (X^2=Y^2=Z^2=1, XY=iZ cyclically, different sites commute).", "quantifier": "all pairs of valid Pauli strings of any length over any integer labels, all representations of the Pauli relations", "why_tests_cant": "the number of label sets and operator words is infinite; tests compare a few small matrices", "anchors": ["qosy/algebra.py:product", "qosy/algebra.py:_operation_opstring"]}
{"id": "C02", "title": "Product of Majorana strings is the operator product", "statement": "For two valid Majorana strings A and B (with the prefactor qosy computes for them), product(A,B) returns (c, C) with A*B = c*C in every algebra whose a_i, b_i all square to one and pairwise anticommute, where d_i = -i a_i b_i. In particular the fermionic reordering sign is right.", "quantifier": "all pairs of valid Majorana strings of any length, all representations of the Majorana relations", "why_tests_cant": "the reordering sign depends on the interleaving of two arbitrarily long label lists", "anchors": ["qosy/algebra.py:product", "qosy/algebra.py:_operation_opstring", "qosy/tools.py:sort_sign"]}
{"id": "C03", "title": "Commutators and anticommutators of strings are exact", "statement": "commutator(A,B) returns (c,C) with AB-BA = c*C, or the explicit zero result (0, None) exactly when AB-BA = 0; anticommutator(A,B) likewise for AB+BA. Both for Pauli and for Majorana strings.", "quantifier": "all pairs of valid strings of the same type, all representations of the relations", "why_tests_cant": "the decision zero/non-zero depends on a parity over unbounded strings", "anchors": ["qosy/algebra.py:commutator", "qosy/algebra.py:anticommutator", "qosy/algebra.py:_operation_opstring"]}
{"id": "C04", "title": "String products are closed and well-formed", "statement": "The string returned by product/commutator/anticommutator of two valid strings is again a valid string of the same type: labels strictly increasing and drawn from the union of the labels of the inputs, operators of the right kind, and the prefactor the constructor computes; its coefficient is 1,-1,i or -i (times 2 for brackets). Hence no product of valid strings is ever rejected by the constructor. Exactly one of commutator and anticommutator of two valid strings vanishes.", "quantifier": "all pairs of valid strings of the same type", "why_tests_cant": "an invariant of an unbounded domain; tests check values, not the invariant", "anchors": ["qosy/algebra.py:_operation_opstring", "qosy/operatorstring.py:OperatorString.__init__"]}
{"id": "C05", "title": "Pauli and Majorana strings are Hermitian and square to one", "statement": "Every Pauli string and every Majorana string built without an explicit imaginary prefactor denotes a Hermitian operator whose square is the identity, in every *-representation of the relations; product(S,S) returns exactly (1, identity).", "quantifier": "all label lists without repetitions, all operator words, all *-representations", "why_tests_cant": "the Majorana prefactor rule depends on the parity of n(n-1)/2 for arbitrary n", "anchors": ["qosy/operatorstring.py:OperatorString.__init__", "qosy/algebra.py:product"]}
{"id": "C06", "title": "Products, commutators and anticommutators of Operators are bilinear and exact", "statement": "For Operators over Pauli or Majorana strings, product(A,B), commutator(A,B) and anticommutator(A,B) denote exactly the sum over pairs of terms of the corresponding string brackets, i.e. the true operator product/commutator/anticommutator, up to the terms whose coefficient is below the tolerance; if no non-zero term is below the tolerance the result is exact. The result's strings are pairwise distinct and len(coeffs) equals the number of strings.", "quantifier": "all pairs of Operators with any number of terms, any coefficients, any tolerance", "why_tests_cant": "cancellation and collision of terms depend on unbounded combinations", "anchors": ["qosy/algebra.py:_operation_operator", "qosy/algebra.py:product", "qosy/algebra.py:commutator", "qosy/algebra.py:anticommutator"]}
{"id": "C07", "title": "Operator arithmetic is coefficient-wise linear arithmetic", "statement": "For Operators A, B of one type and a scalar s: the coefficient of every string in A+B is the sum of its coefficients in A and B (0 when absent); likewise A-B, -A, s*A and A*s; A += B and A -= B produce the same value as A+B and A-B. Mismatched operator types raise ValueError.", "quantifier": "all pairs of Operators with any number of terms and any overlap of their strings", "why_tests_cant": "the index bookkeeping for merged bases has unboundedly many overlap patterns", "anchors": ["qosy/basis.py:Operator.__add__", "qosy/basis.py:Operator.__iadd__", "qosy/basis.py:Operator.__sub__", "qosy/basis.py:Operator.__mul__", "qosy/basis.py:Operator.__neg__"]}
{"id": "C08", "title": "In-place operator updates do not disturb other objects", "statement": "After A += B or A -= B, every other live Operator and Basis object is observably unchanged.", "quantifier": "all histories of constructor calls, additions and in-place additions over any number of live objects", "why_tests_cant": "an aliasing property over arbitrary object graphs and histories", "anchors": ["qosy/basis.py:Operator.__init__", "qosy/basis.py:Operator.__iadd__", "qosy/basis.py:Operator.__isub__"]}
{"id": "C09", "title": "Basis is an indexed set under every history of updates", "statement": "After any sequence of constructions, additions and in-place additions, a Basis has no repeated operator string, index(basis[i]) = i for every position, basis[index(s)] = s for every member, membership and index agree, and index raises KeyError exactly for non-members. Constructing from a list with a repeated string raises ValueError.", "quantifier": "all finite histories of Basis operations", "why_tests_cant": "must hold after every history", "anchors": ["qosy/basis.py:Basis"]}
{"id": "C10", "title": "Basis addition is ordered set union", "statement": "basis + other and basis += other contain exactly the strings of either operand; the old strings keep their positions; new strings follow in the order of the operand. The operation is idempotent and associative as a set operation, and + leaves its operands unchanged.", "quantifier": "all pairs of bases (and basis plus single string)", "why_tests_cant": "overlap patterns are unbounded", "anchors": ["qosy/basis.py:Basis.__add__", "qosy/basis.py:Basis.__iadd__"]}
{"id": "C11", "title": "to_vector gives the coordinates of an operator in a basis", "statement": "op.to_vector(basis)[i] is the coefficient of basis[i] in op (0 if absent) when every string of op is in the basis, and KeyError is raised otherwise; Operator(op.to_vector(basis), basis) denotes the same operator as op.", "quantifier": "all operators and bases of any size", "why_tests_cant": "unbounded sizes and overlaps", "anchors": ["qosy/basis.py:Operator.to_vector"]}
{"id": "C12", "title": "remove_zeros keeps exactly the significant terms", "statement": "op.remove_zeros(tol) contains exactly the terms of op whose coefficient has absolute value above tol, with unchanged coefficients and order, and leaves op unchanged.", "quantifier": "all operators and all tolerances", "why_tests_cant": "unbounded", "anchors": ["qosy/basis.py:Operator.remove_zeros"]}
{"id": "C13", "title": "normalize produces a unit vector in the same direction", "statement": "For an operator with non-zero coefficients, normalize() keeps its strings, multiplies all coefficients by one positive real number and makes norm() equal 1; a second normalize() changes nothing.", "quantifier": "all operators with at least one non-zero coefficient (exact arithmetic)", "why_tests_cant": "continuous domain of coefficients", "anchors": ["qosy/basis.py:Operator.norm", "qosy/basis.py:Operator.normalize"]}
{"id": "C14", "title": "Structure constants reproduce all commutators", "statement": "structure_constants(basisA, basisB) returns, for every S_b in basisB, a matrix N^b such that [S_a, S_b] = sum_c N^b[c,a] S_c for every S_a of basisA, where S_c ranges over the returned extended basis; the extended basis has no repetitions and contains only strings that really occur in some non-zero commutator.", "quantifier": "all pairs of bases of any size, all operator types with a product rule", "why_tests_cant": "unbounded bases", "anchors": ["qosy/algebra.py:structure_constants"]}
{"id": "C15", "title": "The Liouvillian matrix represents the commutator with an operator", "statement": "For L, ext = liouvillian_matrix(basis, O): for every coefficient vector v, the commutator of sum_a v_a S_a with O equals sum_c (L v)_c ext_c.", "quantifier": "all bases, operators and coefficient vectors", "why_tests_cant": "a linear-algebraic identity over unbounded dimensions", "anchors": ["qosy/algebra.py:liouvillian_matrix", "qosy/algebra.py:_liouvillian_matrix_opstrings", "qosy/algebra.py:_liouvillian_matrix_operators"]}
{"id": "C16", "title": "The commutant matrix detects exactly the commuting operators", "statement": "C = commutant_matrix(basis, O) is Hermitian and positive semidefinite, v^dagger C v is the squared coefficient norm of the commutator [sum_a v_a S_a, O], and C v = 0 if and only if sum_a v_a S_a commutes with O.", "quantifier": "all bases, operators and coefficient vectors", "why_tests_cant": "an equivalence over a continuous domain", "anchors": ["qosy/algebra.py:commutant_matrix"]}
{"id": "C17", "title": "generate_lie_algebra returns the generated Lie algebra", "statement": "For a Basis of strings, the returned Basis contains the generators, is closed under commutators (every non-zero commutator of two members is a multiple of a member) and contains nothing outside the smallest such set; the loop always terminates.", "quantifier": "all finite bases of Pauli or Majorana strings", "why_tests_cant": "the while loop grows its own worklist; termination and closure are properties of every run", "anchors": ["qosy/algebra.py:generate_lie_algebra"]}
{"id": "C18", "title": "cluster_basis enumerates exactly the strings on a cluster", "statement": "For Pauli and Majorana types, cluster_basis(k, labels) contains exactly the valid strings whose support is a subset of the labels with an allowed number of orbitals (plus the identity iff include_identity), each exactly once, so construction never fails; the number of strings is sum over allowed m of binomial(n,m)*3^m.", "quantifier": "all clusters of distinct labels, all k (number or list)", "why_tests_cant": "combinatorial completeness for every n and k", "anchors": ["qosy/basis.py:cluster_basis"]}
{"id": "C19", "title": "distance_basis enumerates exactly the strings of bounded diameter", "statement": "distance_basis(lattice, k, R, type, allowed_labels) contains exactly the valid strings with an allowed number of orbitals, all allowed and pairwise within distance R, each once.", "quantifier": "all symmetric distance functions, radii, allowed subsets and k", "why_tests_cant": "depends on the clique enumeration for arbitrary graphs", "anchors": ["qosy/basis.py:distance_basis"]}
{"id": "C20", "title": "maximal_cliques returns every maximal clique exactly once", "statement": "For every loop-free symmetric graph given by adjacency lists, maximal_cliques terminates and the returned list contains each maximal clique exactly once (as a set) and nothing else, whatever the iteration order of the sets used inside.", "quantifier": "all finite loop-free graphs and all set iteration orders", "why_tests_cant": "an exhaustive recursive search over arbitrary graphs; tests use one graph", "anchors": ["qosy/tools.py:maximal_cliques"]}
{"id": "C21", "title": "connected_components partitions the graph into reachability classes", "statement": "For every symmetric graph, connected_components returns lists that are disjoint, cover all vertices, have no repetitions, and two vertices are in one list iff they are connected by a path; DFS and BFS modes return the same partition.", "quantifier": "all finite symmetric graphs, both modes", "why_tests_cant": "arbitrary graphs", "anchors": ["qosy/tools.py:connected_components"]}
{"id": "C22", "title": "sort_sign sorts and reports the parity of the sort", "statement": "sort_sign(list) returns the ascending sort of the list and a sign equal to (-1)^(number of inverted pairs); equal elements are never counted. The insertion-sort and merge-sort methods agree on the sorted list and the sign.", "quantifier": "all finite integer lists, with or without repetitions", "why_tests_cant": "unbounded lists", "anchors": ["qosy/tools.py:sort_sign"]}
{"id": "C23", "title": "sign is the parity of a permutation", "statement": "sign(perm) equals the mathematical sign of the permutation, for every permutation array; hence it is multiplicative under compose_permutations.", "quantifier": "all permutations of range(n), all n", "why_tests_cant": "n! permutations for every n", "anchors": ["qosy/tools.py:sign"]}
{"id": "C24", "title": "compare is a total order on tuples", "statement": "compare(a,b) is antisymmetric, transitive and total, orders shorter tuples first and equal-length tuples lexicographically, and is 0 exactly for equal tuples.", "quantifier": "all triples of integer tuples", "why_tests_cant": "transitivity over all triples", "anchors": ["qosy/tools.py:compare"]}
{"id": "C25", "title": "remove_duplicates keeps one representative of each class", "statement": "For an equivalence, remove_duplicates(list) returns a sublist (first occurrences, original order) with pairwise inequivalent members such that every input member is equivalent to a kept one.", "quantifier": "all lists and all equivalence relations", "why_tests_cant": "quantifies over functions", "anchors": ["qosy/tools.py:remove_duplicates"]}
{"id": "C26", "title": "compose_permutations is composition", "statement": "compose_permutations(p,q) is the array of i -> p[q[i]]; it is a permutation when p and q are, is associative, has arange as unit, and every permutation has an inverse.", "quantifier": "all permutation arrays of equal length", "why_tests_cant": "all n", "anchors": ["qosy/tools.py:compose_permutations"]}
{"id": "C27", "title": "gram_schmidt returns an orthonormal basis of the column span", "statement": "In exact arithmetic, for a matrix whose first column is non-zero, gram_schmidt (tolerance 0) returns orthonormal columns spanning the same subspace as the input columns.", "quantifier": "all complex matrices with non-zero first column", "why_tests_cant": "continuous domain", "anchors": ["qosy/tools.py:gram_schmidt"]}
{"id": "C28", "title": "intersection returns an orthonormal basis of the intersection of two subspaces", "statement": "In exact arithmetic, given two matrices with orthonormal columns and an exact Hermitian eigensolver, intersection returns orthonormal columns spanning exactly the intersection of the two column spaces.", "quantifier": "all pairs of matrices with orthonormal columns, all valid eigensolver outputs", "why_tests_cant": "continuous domain; depends on an oracle", "anchors": ["qosy/tools.py:intersection"]}
{"id": "C29", "title": "Jordan-Wigner conversion is exact", "statement": "convert(S, 'Majorana') of a Pauli string and convert(S, 'Pauli') of a Majorana string return a single string with a coefficient denoting the same operator under a_j = Z_0..Z_{j-1} X_j, b_j = Z_0..Z_{j-1} Y_j; the coefficient is +1 or -1, and converting there and back gives the original string with coefficient 1.", "quantifier": "all valid strings with non-negative labels, all representations", "why_tests_cant": "string length and labels unbounded", "anchors": ["qosy/conversion.py:_jordan_wigner", "qosy/conversion.py:convert"]}
{"id": "C30", "title": "Fermion to Majorana conversion is exact", "statement": "convert(F, 'Majorana', include_identity=True) of a normal-ordered Fermion string denotes the same operator (the string plus its Hermitian conjugate unless it is its own conjugate) in every representation with c_j = (a_j + i b_j)/2; with include_identity=False the result differs from it exactly by the identity term.", "quantifier": "all normal-ordered fermion strings on fewer than 52 distinct orbitals (where the code's machine-epsilon test is exact) with prefactor 1 or i, except those whose result has no terms, for which the code raises ValueError", "why_tests_cant": "exponentially many terms with signs, for all lengths", "anchors": ["qosy/conversion.py:_convert_fermion_string"]}
{"id": "C31", "title": "Majorana to Fermion conversion is exact", "statement": "convert(M, 'Fermion', include_identity=True) of a valid Majorana string denotes the same operator in every representation with a_j = c_j + c_j^dagger, b_j = i c_j^dagger - i c_j, reading each Fermion string as itself plus its Hermitian conjugate unless it is its own conjugate.", "quantifier": "all valid Majorana strings of any length", "why_tests_cant": "exponentially many terms with signs and a lexicographic selection rule", "anchors": ["qosy/conversion.py:_convert_majorana_string"]}
{"id": "C32", "title": "Conversion of operators is linear and conversion_matrix represents it", "statement": "convert(O, type) denotes the sum of the converted terms of O; conversion_matrix(basisA, basisB) maps the coordinate vector of any operator over basisA to the coordinates of the converted operator over basisB, whenever basisB contains the strings needed; the documented complete cluster bases are sufficient.", "quantifier": "all operators, all pairs of bases", "why_tests_cant": "unbounded bases", "anchors": ["qosy/conversion.py:_convert_operator", "qosy/conversion.py:conversion_matrix", "qosy/basis.py:cluster_basis"]}
{"id": "C33", "title": "Operator string text round trip", "statement": "opstring(str(S), S.op_type) gives back an operator string equal to S. The words of the text may be separated by white space of any kind and length.", "quantifier": "all operator strings the constructor accepts", "why_tests_cant": "unbounded strings and integers", "anchors": ["qosy/operatorstring.py:opstring", "qosy/operatorstring.py:OperatorString.__str__"]}
{"id": "C34", "title": "Equal operator strings have equal hashes", "statement": "If S == T for operator strings then hash(S) == hash(T), so that dictionaries and Basis treat equal strings as one key.", "quantifier": "all pairs of constructible operator strings", "why_tests_cant": "a contract over all pairs", "anchors": ["qosy/operatorstring.py:OperatorString.__eq__", "qosy/operatorstring.py:OperatorString.__hash__"]}
{"id": "C35", "title": "The constructor rejects malformed operator strings", "statement": "OperatorString(...) and opstring(...) raise ValueError for unknown operator types, operators of the wrong kind, different numbers of operators and labels, and prefactors other than 1 and i; accepted strings have the given operators, labels and type.", "quantifier": "all constructor arguments", "why_tests_cant": "all malformed inputs", "anchors": ["qosy/operatorstring.py:OperatorString.__init__", "qosy/operatorstring.py:opstring"]}
{"id": "C36", "title": "Label permutations act as algebra automorphisms", "statement": "For a permutation T, T.apply(S) denotes the operator obtained from S by relabelling all site operators, with the fermionic sign for Majorana strings; T preserves products: if product(A,B) = (c,C) then T(A)T(B) = c T(C). T.apply is linear on Operators.", "quantifier": "all permutations, all valid strings, all representations", "why_tests_cant": "all permutations of all sizes", "anchors": ["qosy/transformation.py:_permutation_rule", "qosy/transformation.py:label_permutation", "qosy/transformation.py:Transformation.apply"]}
{"id": "C37", "title": "Label permutations form a group action", "statement": "label_permutation(p).apply(label_permutation(q).apply(S)) = label_permutation(compose_permutations(p,q)).apply(S), with signs; the identity permutation acts trivially and permutations act invertibly.", "quantifier": "all permutations and strings", "why_tests_cant": "all n", "anchors": ["qosy/transformation.py:_permutation_rule", "qosy/tools.py:compose_permutations"]}
{"id": "C38", "title": "Time reversal is an antiunitary symmetry of the string algebra", "statement": "time_reversal().apply(S) = s S with s = +-1 equal to the image of S under every antilinear ring automorphism sending X,Y,Z to -X,-Y,-Z (Pauli) or a,b to a,-b (Majorana); it is an involution and antimultiplicative on coefficients: product(A,B)=(c,C) implies T(A)T(B) = conj(c) T(C).", "quantifier": "all valid strings", "why_tests_cant": "all strings", "anchors": ["qosy/transformation.py:_time_reversal_rule", "qosy/transformation.py:time_reversal"]}
{"id": "C39", "title": "Particle-hole transformation is an involutive automorphism", "statement": "particle_hole().apply(S) = s S with s = +-1 equal to the image of S under the linear automorphism sending a,b to a,-b, and it is an involution preserving products.", "quantifier": "all valid Majorana strings", "why_tests_cant": "all strings", "anchors": ["qosy/transformation.py:_particle_hole_rule", "qosy/transformation.py:particle_hole"]}
{"id": "C40", "title": "Transformations compose and exponentiate", "statement": "(C*D).apply(x) = C.apply(D.apply(x)); multiplication is associative; (T**n).apply is n-fold application for n >= 1 and n <= 0 raises ValueError.", "quantifier": "all transformations whose non-zero coefficients exceed the drop tolerance, all n, all operators", "why_tests_cant": "quantifies over functions and n", "anchors": ["qosy/transformation.py:_product_rule", "qosy/transformation.py:Transformation.__mul__", "qosy/transformation.py:Transformation.__pow__"]}
{"id": "C41", "title": "symmetry_matrix represents the transformation", "statement": "For a basis closed under T, column a of symmetry_matrix(basis, T) holds the coordinates of T(S_a); matrices multiply as transformations compose; for a label permutation the matrix is a signed permutation matrix, hence unitary.", "quantifier": "all bases closed under T, all transformations", "why_tests_cant": "unbounded dimension", "anchors": ["qosy/transformation.py:symmetry_matrix", "qosy/transformation.py:_symmetry_matrix_opstrings"]}
{"id": "C42", "title": "symmetrize_basis returns invariant operators", "statement": "Every Operator returned by symmetrize_basis(basis, generators) is invariant under every generator, for every list of label permutations of one length.", "quantifier": "all bases, all lists of label permutations", "why_tests_cant": "group closure for arbitrary generators", "anchors": ["qosy/symmetrization.py:symmetrize_basis", "qosy/symmetrization.py:_symmetrize_opstring"]}
{"id": "C43", "title": "to_matrix is a faithful *-representation of Pauli strings", "statement": "For labels in range(n), to_matrix(S,n) is the tensor product of the 2x2 Pauli matrices in label order; hence to_matrix(product) = product of matrices, matrices are Hermitian and unitary; labels >= n are rejected; to_matrix of an Operator is the linear combination.", "quantifier": "all n, all strings and operators on range(n)", "why_tests_cant": "all n", "anchors": ["qosy/diagonalization.py:to_matrix", "qosy/diagonalization.py:_to_matrix_opstring", "qosy/diagonalization.py:_apply_opstring"]}
{"id": "C44", "title": "Pauli strings are trace-orthonormal and to_vector inverts to_matrix", "statement": "tr(S^dagger T)/2^n is 1 if S and T are the same string and 0 otherwise, so to_vector(to_matrix(O,n), basis, n) is the coefficient vector of O for every operator over the basis.", "quantifier": "all n, all strings and operators on range(n)", "why_tests_cant": "all n", "anchors": ["qosy/diagonalization.py:to_vector", "qosy/diagonalization.py:to_matrix"]}
{"id": "C45", "title": "apply_transformation permutes tensor factors consistently with label_permutation", "statement": "For a permutation of range(n), apply_transformation acts on state vectors as the unitary U permuting the sites, is a norm preserving bijection, and U to_matrix(S) = to_matrix(T(S)) U.", "quantifier": "all n, permutations, vectors and strings", "why_tests_cant": "all n", "anchors": ["qosy/diagonalization.py:apply_transformation", "qosy/diagonalization.py:apply_transformation_conf"]}
{"id": "C46", "title": "reduced_density_matrix is the partial trace", "statement": "reduced_density_matrix(v, labels) is Hermitian, positive semidefinite, has trace <v|v>, and reproduces the expectation value of every operator on the subsystem.", "quantifier": "all vectors, all n, all lists of distinct labels", "why_tests_cant": "all n and subsets", "anchors": ["qosy/diagonalization.py:reduced_density_matrix", "qosy/diagonalization.py:_reshape_vector_subsystems"]}
{"id": "C47", "title": "Quadratic Majorana Hamiltonians are assembled exactly", "statement": "For a quadratic Majorana Operator H, the matrix A built by diagonalize_quadratic is antisymmetric and H = (i/4) sum A_ij gamma_i gamma_j; non-quadratic strings raise ValueError.", "quantifier": "all quadratic Majorana operators with any number of terms", "why_tests_cant": "unbounded", "anchors": ["qosy/diagonalization.py:diagonalize_quadratic"]}
{"id": "C48", "title": "Tight-binding and BdG matrices are Hermitian and represent the operator", "statement": "The single-particle matrix built from a quadratic Fermion Operator is Hermitian, H = sum h_ij c_i^dagger c_j; the BdG matrix is Hermitian, particle-hole symmetric and represents H up to a constant.", "quantifier": "all quadratic fermion operators with real coefficients", "why_tests_cant": "unbounded", "anchors": ["qosy/diagonalization.py:diagonalize_quadratic_tightbinding", "qosy/diagonalization.py:diagonalize_bdg"]}
{"id": "C49", "title": "commuting_operators returns an orthonormal basis of the commutant", "statement": "With an exact Hermitian eigensolver, the vectors returned by commuting_operators(basis, O) are orthonormal and span exactly the set of operators over the basis commuting with O.", "quantifier": "all bases and operators, all valid eigensolver outputs", "why_tests_cant": "depends on an equivalence over a continuous domain", "anchors": ["qosy/core.py:commuting_operators"]}
{"id": "C50", "title": "invariant_operators returns exactly the invariant operators", "statement": "With an exact Hermitian eigensolver and a transformation whose matrix does not increase norms, invariant_operators in mode commutator (anticommutator) returns an orthonormal basis of the operators with T(O) = O (T(O) = -O).", "quantifier": "all norm-non-increasing symmetry matrices, all valid eigensolver outputs", "why_tests_cant": "continuous domain", "anchors": ["qosy/core.py:invariant_operators"]}
{"id": "C51", "title": "Reusing explored data never changes a Liouvillian matrix", "statement": "After any sequence of explorations sharing one cache, the Liouvillian matrix and extended basis returned for a basis and an operator describe exactly the commutators of that basis with that operator.", "quantifier": "all histories of explorations (any bases, any operators)", "why_tests_cant": "a cache-coherence property over histories", "anchors": ["qosy/algorithms.py:_explore", "qosy/algorithms.py:selected_ci_greedy"]}
{"id": "C52", "title": "Basis truncation keeps the largest significant components", "statement": "_truncate_basis returns a subset of the basis of size at most the maximum, ordered by decreasing magnitude, containing only strings with magnitude above the threshold, and no discarded string above the threshold has larger magnitude than a kept one.", "quantifier": "all bases, vectors, sizes and thresholds", "why_tests_cant": "unbounded", "anchors": ["qosy/algorithms.py:_truncate_basis"]}
{"id": "C53", "title": "Lattice orbital indexing is a bijection", "statement": "A Lattice has (product of cell counts) * (orbitals per cell) orbitals, and index(position(i), name(i)) = i for every orbital when positions are distinct; index returns -1 for missing orbitals; positions shifted by a full period of a periodic direction get the same index.", "quantifier": "all unit cells with distinct rational positions, all cell counts and boundary conditions", "why_tests_cant": "all lattice sizes", "anchors": ["qosy/lattice.py:Lattice.__init__", "qosy/lattice.py:Lattice.index", "qosy/lattice.py:Lattice.position"]}
{"id": "C54", "title": "Lattice distance is symmetric, non-negative and minimal over periodic images", "statement": "distance(i,j) = distance(j,i) >= 0, distance(i,i) = 0, and it is the minimum of |r_i - r_j + b| over all boundary vectors b. An index from -len to -1 counts from the end; other indices raise IndexError.", "quantifier": "all lattices and pairs of orbitals", "why_tests_cant": "all lattices", "anchors": ["qosy/lattice.py:Lattice.distance"]}
{"id": "C55", "title": "symmetrize_lattice uses the whole point group", "statement": "The lattice returned by symmetrize_lattice is invariant under every given point group generator (modulo lattice translations).", "quantifier": "all lattices and generators of finite point groups", "why_tests_cant": "group closure for arbitrary generators", "anchors": ["qosy/symmetrization.py:symmetrize_lattice"]}
{"id": "C56", "title": "diagonalize_quadratic returns the modes of the Hamiltonian", "statement": "For a quadratic Majorana Operator, the energies returned by diagonalize_quadratic are not negative (up to the threshold), the operators defined by the columns of eigvecs_Majorana are fermionic modes, and the operator is the sum of energies times occupation numbers plus constant_shift.", "quantifier": "all quadratic Majorana operators, all valid outputs of the real Schur decomposition", "why_tests_cant": "depends on which of many valid Schur decompositions the numerical library returns", "anchors": ["qosy/diagonalization.py:diagonalize_quadratic"]}
{"id": "C57", "title": "The Fermion vectors of diagonalize_quadratic are a unitary change of basis", "statement": "The matrix eigvecs_Fermion returned by diagonalize_quadratic expresses the modes in terms of creation and annihilation operators and is unitary.", "quantifier": "all numbers of orbitals, all Schur decompositions", "why_tests_cant": "unbounded", "anchors": ["qosy/diagonalization.py:diagonalize_quadratic"]}
{"id": "C58", "title": "selected_ci_greedy reports correct commutator norms", "statement": "Each operator in the history returned by selected_ci_greedy is normalised with real coefficients, the number returned with it is the squared norm of its commutator with the operator in com_ops, and best_operator and best_com_norm are the (first) smallest of the history.", "quantifier": "all operators, initial operators, step counts, list lengths, numbers of eigenvectors; all valid outputs of the eigensolver and argsort", "why_tests_cant": "holds for every history of explorations, truncations and eigensolver outputs", "anchors": ["qosy/algorithms.py:selected_ci_greedy", "qosy/algorithms.py:_projected_vector"]}
{"id": "C59", "title": "selected_ci_greedy minimises over its basis", "statement": "Without target_operator and orth_ops, each operator found by selected_ci_greedy has the smallest (sum of) squared commutator norms with com_ops among all normalised real combinations of the strings in its basis.", "quantifier": "all operators, bases and valid outputs of the eigensolver", "why_tests_cant": "a statement about all combinations of an unbounded basis", "anchors": ["qosy/algorithms.py:selected_ci_greedy", "qosy/algorithms.py:_com_matrix"]}
{"id": "C60", "title": "selected_ci_greedy continues with the truncated operator", "statement": "After each step the operator that selected_ci_greedy expands in the next step is the operator just found restricted to the strings kept by the truncation, with their coefficients.", "quantifier": "all steps of all searches", "why_tests_cant": "internal state after any number of steps", "anchors": ["qosy/algorithms.py:selected_ci_greedy", "qosy/algorithms.py:_truncate_basis"]}
{"id": "C61", "title": "orth_ops keeps the result orthogonal", "statement": "The operators found by selected_ci_greedy with orth_ops are (almost) orthogonal to all operators in orth_ops, if the basis contains such a combination.", "quantifier": "all operators and lists orth_ops", "why_tests_cant": "all combinations of an unbounded basis", "anchors": ["qosy/algorithms.py:selected_ci_greedy", "qosy/algorithms.py:_orthogonalize_com_matrix"]}
{"id": "C62", "title": "selected_ci_greedy terminates", "statement": "selected_ci_greedy ends after at most num_steps steps, with or without a target operator and fidelity.", "quantifier": "all arguments", "why_tests_cant": "non-termination cannot be observed by a test", "anchors": ["qosy/algorithms.py:selected_ci_greedy"]}
{"id": "C63", "title": "Each step of selected_ci_greedy extends its basis by a bounded number of strings", "statement": "In each step the basis that selected_ci_greedy diagonalises contains the current basis and at most num_H_terms strings for each operator in com_ops and 2 num_O_terms strings more; afterwards at most max_basis_size are kept.", "quantifier": "all steps of all searches", "why_tests_cant": "holds after any history of explorations and truncations", "anchors": ["qosy/algorithms.py:selected_ci_greedy"]}
{"id": "C64", "title": "selected_ci_greedy stops when asked to, and not earlier", "statement": "Without a target operator, selected_ci_greedy makes num_steps steps unless the smallest commutator norm so far is below target_com_norm or the last norm is larger than the best one before, or relatively closer to it than min_relative_change; in this case it stops right after that step.", "quantifier": "all searches of any length", "why_tests_cant": "depends on all norms found in any history", "anchors": ["qosy/algorithms.py:selected_ci_greedy"]}
{"id": "C65", "title": "symmetrize_lattice keeps the atoms of the crystal", "statement": "Every atom of the crystal described by the given lattice is one of the atoms of the crystal described by the lattice that symmetrize_lattice returns.", "quantifier": "all lattices, all generators of finite point groups, all numbers of expansions", "why_tests_cant": "all atoms of an infinite crystal", "anchors": ["qosy/symmetrization.py:symmetrize_lattice", "qosy/symmetrization.py:_expand_lattice"]}
{"id": "C66", "title": "sparsify spans the same vector space", "statement": "sparsify(vectors) returns as many unit vectors as it is given, linearly independent and sorted by their number of non-zero entries, that span the same space as the given vectors; with orthogonalize=True they are orthonormal.", "quantifier": "all lists of vectors, both values of orthogonalize, all valid outputs of the LU decomposition and argsort", "why_tests_cant": "all dimensions and all vectors", "anchors": ["qosy/tools.py:sparsify"]}
{"id": "C67", "title": "SymmetricOperatorGenerator finds the operators with each and with all symmetries", "statement": "In the noncumulative mode of SymmetricOperatorGenerator the i-th generated result is an orthonormal basis of the operators with the i-th symmetry, and the i-th projected result spans exactly the operators with the first i symmetries, for Operators and Transformations as symmetries, with and without sparsification and orthogonalization.", "quantifier": "all Pauli or Majorana bases, all lists of symmetries, all exact eigensolvers, LU decompositions and sorts", "why_tests_cant": "the null spaces of all operators", "anchors": ["qosy/core.py:SymmetricOperatorGenerator.generate", "qosy/core.py:SymmetricOperatorGenerator.add_symmetry"]}
{"id": "C68", "title": "The cumulative mode of SymmetricOperatorGenerator finds the operators with all symmetries", "statement": "In the cumulative mode the i-th result is a list of normalized, linearly independent Operators that span the operators with the first i symmetries; the generator stops when no operator is left. Modes other than cumulative and noncumulative raise ValueError.", "quantifier": "all bases of Pauli or Majorana strings or of operators, all lists of symmetries, all option values", "why_tests_cant": "each step works in the basis found by the step before", "anchors": ["qosy/core.py:SymmetricOperatorGenerator.generate"]}
{"id": "C69", "title": "generate can be called again", "statement": "Calling SymmetricOperatorGenerator.generate a second time, possibly after adding symmetries, gives the operators with all the symmetries again.", "quantifier": "all histories of add_symmetry and generate", "why_tests_cant": "the state left by the first call is used by the second", "anchors": ["qosy/core.py:SymmetricOperatorGenerator.generate"]}
{"id": "C70", "title": "swap exchanges two names in a text", "statement": "tools.swap(text, A, B) replaces every occurrence of A by B and of B by A, scanning from the left; doing it twice restores the text, the order of A and B does not matter, and a text that contains neither is unchanged.", "quantifier": "all texts and all pairs of names", "why_tests_cant": "overlaps and nesting of names occur for infinitely many pairs", "anchors": ["qosy/tools.py:swap"]}
{"id": "C71", "title": "replace substitutes all keys of a dictionary at once", "statement": "tools.replace(text, substitutions) replaces in one pass from the left the longest key that begins at each place by its value; the result does not depend on the order of the dictionary and replaced text is not replaced again.", "quantifier": "all texts and dictionaries", "why_tests_cant": "the order of keys and overlaps are unbounded", "anchors": ["qosy/tools.py:replace"]}
{"id": "C72", "title": "argsort gives the sorting permutation", "statement": "tools.argsort(list, comp) returns the indices of the elements in sorted order, stable for equal elements; comp is a comparison of elements.", "quantifier": "all lists and comparisons", "why_tests_cant": "all lists of all lengths", "anchors": ["qosy/tools.py:argsort"]}
{"id": "C73", "title": "space_group_symmetry implements a space group operation", "statement": "space_group_symmetry(lattice, R, d) relabels the operators of the orbital at r by those of the orbital with the same name at R r + d (up to periods); translations and rotations that map the crystal to itself are accepted, and maps that are not symmetries of the crystal raise ValueError.", "quantifier": "all lattices, all R and d, all strings of all lengths", "why_tests_cant": "there are infinitely many lattices and strings; periodic wrapping and bijectivity have to hold for every orbital", "anchors": ["qosy/transformation.py:space_group_symmetry"]}
{"id": "C74", "title": "spin_flip_symmetry exchanges spin up and down", "statement": "spin_flip_symmetry(lattice, up, dn) exchanges the operators of every orbital with those of the orbital at the same position with the opposite spin name; applying it twice is the identity; missing partners raise ValueError.", "quantifier": "all lattices whose orbitals come in spin pairs, all names, all strings", "why_tests_cant": "names and lattices are unbounded", "anchors": ["qosy/transformation.py:spin_flip_symmetry"]}
{"id": "C75", "title": "spin_parity_symmetry changes the sign of spin-down operators", "statement": "spin_parity_symmetry(lattice, up, dn) reverses the signs of the Majorana operators of the orbitals with spin down and of no others; it squares to the identity and rejects strings that are not Majorana strings.", "quantifier": "all lattices, names and Majorana strings", "why_tests_cant": "signs of products of unbounded length", "anchors": ["qosy/transformation.py:spin_parity_symmetry"]}
{"id": "C76", "title": "time_reversal with spin is the antiunitary time reversal of fermions with spin", "statement": "time_reversal(lattice) and time_reversal((lattice, up, dn)) send every Majorana string to its image under the antiunitary map with a_up to a_dn, b_up to -b_dn, a_dn to -a_up, b_dn to b_up; the square is the fermion parity.", "quantifier": "all lattices whose orbitals come in spin pairs, all Majorana strings, all representations and antiunitary maps", "why_tests_cant": "signs of products of unbounded length", "anchors": ["qosy/transformation.py:time_reversal", "qosy/transformation.py:_time_reversal_rule"]}
{"id": "C77", "title": "generate_lie_algebra of operators gives the Lie algebra they generate", "statement": "generate_lie_algebra(operators) terminates for every list of Hermitian Pauli or Majorana operators; the result starts with the operators given, consists of linear combinations of their nested commutators, is linearly independent up to the first ones, and every commutator of two members lies within the tolerance of its span; with nothing dropped it is a basis of the Lie algebra the operators generate.", "quantifier": "all lists of operators, all tolerances, all representations", "why_tests_cant": "a closure computed by a loop whose length depends on the input; the statement is about all commutators and about all combinations", "anchors": ["qosy/algebra.py:generate_lie_algebra"]}
{"id": "C78", "title": "relabel_orbitals names the place of every orbital", "statement": "relabel_orbitals(text, lattice) replaces every mention of an orbital index in the text of an operator string or operator by the unit cell, atom and orbital name of that orbital and changes nothing else.", "quantifier": "all lattices, all texts, operator strings and operators whose labels are orbitals of the lattice", "why_tests_cant": "indices are prefixes of one another (1 and 12) and the search for the longest match must be right for every pair", "anchors": ["qosy/visualization.py:relabel_orbitals"]}
{"id": "C79", "title": "print_operators and print_vectors show exactly the non-negligible terms", "statement": "print_operators and print_vectors print, for every operator and in order, one line for every term above the tolerance, all coefficients scaled by one positive factor that makes the norm 1, restricted to the lines that contain a keyword if keywords are given, under a heading numbered from one.", "quantifier": "all operators and coefficient vectors, all norms, tolerances, keywords and lattices", "why_tests_cant": "the filtering works on text that contains arbitrary names and labels", "anchors": ["qosy/visualization.py:print_operators", "qosy/visualization.py:print_vectors"]}
{"id": "C80", "title": "renyi_entropy is the Renyi entanglement entropy", "statement": "renyi_entropy(rho, n) of a reduced density matrix of a normalised state is log(tr rho**n)/(1-n); it lies between 0 and the number of remaining sites times log 2, is the same for the remaining and for the traced sites (so it is at most log 2 times the size of the smaller side), does not grow with n, and is 0 exactly for product states; n = 1 raises ZeroDivisionError.", "quantifier": "all states of any number of spins, all subsystems, all orders n >= 2", "why_tests_cant": "an inequality and an equivalence over all states of unboundedly many spins", "anchors": ["qosy/diagonalization.py:renyi_entropy", "qosy/diagonalization.py:reduced_density_matrix"]}
{"id": "C81", "title": "diagonalize finds the lowest eigenstates", "statement": "diagonalize(operator, num_orbitals, num_vecs=k) returns the k lowest eigenvalues of the operator (all without num_vecs) in ascending order and orthonormal eigenvectors for them; in the other modes eigenpairs of any operator.", "quantifier": "all Pauli, Majorana and Fermion operators on any number of orbitals, all k, all exact eigensolvers", "why_tests_cant": "the spectrum of every operator, including the conversion between operator types", "anchors": ["qosy/diagonalization.py:diagonalize", "qosy/conversion.py:convert", "qosy/diagonalization.py:to_matrix"]}
{"id": "C82", "title": "diagonalize_quadratic_tightbinding and diagonalize_bdg return the energies and modes of free fermions", "statement": "The columns returned by diagonalize_quadratic_tightbinding and the columns of U and V returned by diagonalize_bdg are operators that obey the canonical anticommutation relations and lower the energy by the energy returned with them; the energies of diagonalize_bdg are not negative and descend; if all modes are asked for the operator is the sum of energy times occupation number plus a constant.", "quantifier": "all hopping and pairing operators with real coefficients on any number of orbitals, all numbers of vectors, all exact eigensolvers, all representations", "why_tests_cant": "a statement about operators on a space of dimension 2**N for every N", "anchors": ["qosy/diagonalization.py:diagonalize_quadratic_tightbinding", "qosy/diagonalization.py:diagonalize_bdg"]}
{"id": "C83", "title": "selected_ci and its variants return the operator found and its commutator norm", "statement": "selected_ci, selected_ci_simple, selected_ci_sweep and selected_ci_greedy_simple expand the basis of the initial operator by commutators with H, and return a combination of the strings of the expanded basis, the norm of its commutator with H and the record of the steps.", "quantifier": "all Pauli and Majorana operators, all numbers of steps and options", "why_tests_cant": "the search depends on all operators and on all histories of its cache", "anchors": ["qosy/algorithms.py:selected_ci", "qosy/algorithms.py:selected_ci_simple", "qosy/algorithms.py:selected_ci_sweep", "qosy/algorithms.py:selected_ci_greedy_simple"]}
{"id": "C84", "title": "selected_ci_greedy_many_ops returns orthogonal operators with their commutator norms", "statement": "selected_ci_greedy_many_ops returns, for each of the num_steps steps, one normalised operator for each initial operator together with the squared norm of its commutator with H, and the operators of a step are orthogonal to each other.", "quantifier": "all lists of Pauli and Majorana operators, all H, all numbers of steps and truncations", "why_tests_cant": "every step depends on the results of all earlier ones and on the shared cache", "anchors": ["qosy/algorithms.py:selected_ci_greedy_many_ops"]}
{"id": "C85", "title": "selected_ci_greedy_many_ops2 returns orthogonal operators with their commutator norms", "statement": "selected_ci_greedy_many_ops2 returns, for each step, as many normalised, pairwise orthogonal operators over one common set of strings as it was given, with the squared norms of their commutators with H; the first of them has the smallest norm of all normalised combinations of these strings; in the first step no initial operator has a smaller norm; no step repeats the strings of one of the two steps before, and a larger num_steps only appends to the results, and changes nothing if the search ended before; operators in orth_ops do not change the reported norms.", "quantifier": "all lists of Pauli and Majorana operators, all H, all numbers of steps, truncations and random numbers", "why_tests_cant": "every step depends on the results of all earlier ones, on the cache and on random numbers", "anchors": ["qosy/algorithms.py:selected_ci_greedy_many_ops2"]}
{"id": "C86", "title": "_ladder_operators returns exactly the raising operators over the basis", "statement": "_ladder_operators(basis, O) returns normalised operators R over the basis with values d > 0 in increasing order such that [O, R] = d R, and every raising operator over the basis is a combination of the returned ones with its value; without sparsification they are orthogonal.", "quantifier": "all bases of Pauli or Majorana strings, all Hermitian operators O, both options", "why_tests_cant": "completeness is a statement about a whole subspace, for every basis and operator", "anchors": ["qosy/core.py:_ladder_operators"]}
{"id": "C87", "title": "_inverse_ladder_operators returns an operator with the given ladder operator", "statement": "_inverse_ladder_operators(basis, R) returns (O, nulls): O is a normalised operator over the basis with [O, R] = d R, d > 0, or None if there is none; nulls are normalised operators that span the operators over the basis that commute with R.", "quantifier": "all bases of Pauli or Majorana strings, all operators R, both values of sparsification, all tolerances", "why_tests_cant": "the solution and its absence must be right for every basis and operator, and completeness concerns a whole subspace", "anchors": ["qosy/core.py:_inverse_ladder_operators"]}
{"id": "C88", "title": "The strings added in a step of the greedy searches are the strongest terms of the double commutator", "statement": "For one operator H in com_ops and no transformations, a step of selected_ci_greedy extends the current basis by the num_H_terms strongest terms of [[O, H], H] that are not yet in it, where O is the current operator and only the num_H_terms strongest terms of [O, H] are taken; fewer are added only if there are no more; apart from these at most 2 num_O_terms strings are added. The operator recorded is over this basis, and it is recorded unless its fidelity is too low after the first step. In the first step of selected_ci_greedy_many_ops2 the basis of all initial operators is extended in the same way for one operator after the other.", "quantifier": "all Pauli and Majorana operators, all steps and arguments", "why_tests_cant": "which terms are the strongest depends on all coefficients, for every operator and every history of the cache", "anchors": ["qosy/algorithms.py:selected_ci_greedy", "qosy/algorithms.py:selected_ci_greedy_many_ops2"]}
{"id": "C89", "title": "With transformations, selected_ci_greedy returns almost symmetric operators", "statement": "With one operator H in com_ops and transformations that permute the strings up to signs, the strings of each operator O of selected_ci_greedy's history are closed under the transformations and O is real and normalised. The number reported with O is |[O, H]|^2 + 10^10/2 sum_T |T(O) - O|^2 and no real normalised combination of these strings has a smaller one, so that O is symmetric up to 2 10^-10 times the smallest norm of a symmetric operator of these strings, and its own norm is at most that. The strings are those of the expanded basis and the least that must be added to make it closed.", "quantifier": "all Pauli and Majorana operators, all label permutations, time reversal and other signed permutations of strings, all numbers of steps and options without orth_ops and target operator", "why_tests_cant": "closure and minimality are statements about all strings reachable by any sequence of transformations, after any history of steps", "anchors": ["qosy/algorithms.py:selected_ci_greedy"]}
{"id": "C90", "title": "With num_vecs, commuting_operators returns a part of the commuting operators and says so", "statement": "commuting_operators with num_vecs=k, 0 < k < n - 1 for a basis of n elements, returns at most k orthonormal operators whose commutator (anticommutator) with the given Operator vanishes, exactly for small tolerances and up to the tolerance otherwise. If it does not warn, every operator in the span of the basis with vanishing commutator (anticommutator) is a combination of the returned ones; it warns exactly if it returns k of them.", "quantifier": "all Basis objects and lists of Pauli and Majorana Operators, all Operators, both modes, all k and tolerances", "why_tests_cant": "completeness is a statement about all combinations of the basis, for every operator and every choice of the eigenvectors found by the Lanczos iteration", "anchors": ["qosy/core.py:commuting_operators"]}
{"id": "C91", "title": "With num_vecs, invariant_operators returns operators with the symmetry", "statement": "invariant_operators with num_vecs=k, 0 < k < n - 1 for an orthonormal basis of n elements, returns at most k orthonormal operators with T(O) = O (or -O), and all such operators if there are fewer than k.", "quantifier": "all orthonormal Basis objects and lists of Operators, all Transformations that permute strings up to signs, both modes, all k", "why_tests_cant": "whether the linear systems solved by the shift-invert iteration are singular depends on whether an operator with the symmetry exists", "anchors": ["qosy/core.py:invariant_operators"]}
{"id": "C92", "title": "With num_vecs, the noncumulative generator finds the operators with all symmetries", "statement": "If symmetries are added to a SymmetricOperatorGenerator with num_vecs, and for each of them fewer than num_vecs independent operators have it, the noncumulative mode finds the same spaces of operators as without num_vecs: those with each symmetry and those with the first i symmetries; without num_vecs the option changes nothing.", "quantifier": "all bases and lists of symmetries, all values of num_vecs and options", "why_tests_cant": "the number of vectors requested interacts with the dimension of every intermediate space", "anchors": ["qosy/core.py:SymmetricOperatorGenerator"]}
{"id": "C93", "title": "With num_vecs, the cumulative generator finds operators with the symmetries and says when some may be missing", "statement": "In the cumulative mode with num_vecs, the i-th list of projected_output_operators consists of normalised, independent operators with the first i symmetries, at most num_vecs of them. A warning is given exactly if a step found num_vecs operators; without a warning the lists span all operators with the symmetries. An exception is possible only if num_vecs was given for a Transformation, for a later symmetry, or was zero or at least the dimension minus one. Without num_vecs nothing changes.", "quantifier": "all bases and lists of symmetries, all values of num_vecs and options, small tolerances", "why_tests_cant": "each step works on the operators found in the steps before", "anchors": ["qosy/core.py:SymmetricOperatorGenerator"]}
{"id": "C94", "title": "to_operator inverts to_matrix", "statement": "to_operator(to_matrix(O, n), basis, n) is the Operator O, written in the given Basis, for every operator O on n sites whose strings are in the Basis.", "quantifier": "all numbers of sites, all Pauli bases and operators", "why_tests_cant": "must hold for every operator and basis", "anchors": ["qosy/diagonalization.py:to_operator"]}
{"id": "C95", "title": "diagonalize_bdg with sigma finds quasiparticles next to an energy", "statement": "diagonalize_bdg(operator, num_orbitals, sigma=s, num_vecs=k) returns energies and annihilation operators of quasiparticles: each operator lowers the energy by the energy returned with it. With sigma=0 and k <= num_orbitals these are the k quasiparticles of lowest energy: every other one, anticommuting with the adjoints of those returned, has at least the energy of each of them. An exception is raised if there is a zero mode.", "quantifier": "all quadratic Fermion and Majorana operators with real coefficients, all numbers of orbitals, all k, all sigma", "why_tests_cant": "which eigenvectors are nearest to a shift depends on the whole spectrum", "anchors": ["qosy/diagonalization.py:diagonalize_bdg"]}
{"id": "C96", "title": "Equality of strings, bases and operators is structural", "statement": "For operator strings S == T iff they have the same orbital operators on the same labels and the same type; for bases b == c iff they hold the same strings in the same order; for operators A == B iff they have the same type and the same coefficients of the same strings in the same order. On bases and operators == is an equivalence relation, and A == B implies that A and B denote the same operator.", "quantifier": "all operator strings, all bases and all well-formed operators", "why_tests_cant": "The comparison combines list, array and dictionary comparisons of which each ignores something (the prefactor, the order); tests compare a handful of objects.", "anchors": ["qosy/operatorstring.py: OperatorString.__eq__", "qosy/basis.py: Basis.__eq__, Operator.__eq__"]}
{"id": "C97", "title": "conversion_matrix of the two directions are inverse matrices", "statement": "If conversion_matrix(A, B) and conversion_matrix(B, A) both exist for a basis A of Pauli or Majorana strings without the identity and a basis B of strings of any type, then conversion_matrix(B, A) times conversion_matrix(A, B) is the identity matrix; if the bases have the same size the matrices are inverse to each other, as the documentation says.", "quantifier": "all pairs of bases of convertible strings on non-negative labels for which both matrices exist", "why_tests_cant": "Tests invert the matrix of one small cluster; the statement is about all bases of any size.", "anchors": ["qosy/conversion.py: conversion_matrix, convert"]}
{"id": "C98", "title": "Conversion commutes with products and brackets", "statement": "For two Pauli strings with non-negative labels, converting them to Majorana strings and taking the product, commutator or anticommutator of the converted strings gives the conversion of their product, commutator or anticommutator: the explicit zero result (0, None) in the same cases, otherwise the same string with matching coefficients. The same from Majorana to Pauli strings.", "quantifier": "all pairs of Pauli strings and all pairs of Majorana strings with non-negative labels, of any length", "why_tests_cant": "a test can only convert a few pairs; that no pair of strings of any length changes its bracket under the conversion needs a proof", "anchors": ["qosy/conversion.py:convert", "qosy/conversion.py:_jordan_wigner", "qosy/algebra.py:product", "qosy/algebra.py:commutator", "qosy/algebra.py:anticommutator"]}
{"id": "C99", "title": "The laws of the algebra hold for returned values", "statement": "product of strings is associative: product(product(A,B),C) and product(A,product(B,C)) return the same string with the same total coefficient. commutator(B,A) is commutator(A,B) with the opposite sign and anticommutator(B,A) equals anticommutator(A,B). For Operators the exchange laws hold whatever the tolerance cuts off; if nothing is cut off, the returned coefficients satisfy the Jacobi identity, the derivation rule [A,BC] = [A,B]C + B[A,C], associativity, and 2AB = [A,B] + {A,B}.", "quantifier": "all strings and Operators of Pauli or of Majorana type, any number of terms and any coefficients", "why_tests_cant": "each law quantifies over pairs or triples of arbitrary strings or Operators", "anchors": ["qosy/algebra.py:product", "qosy/algebra.py:commutator", "qosy/algebra.py:anticommutator"]}
{"id": "C100", "title": "The many-body energies of diagonalize are the signed half sums of the mode energies", "statement": "For an Operator that is quadratic in fermions, diagonalize(op, N) returns 2**N energies, and these are the sums of +E_k/2 or -E_k/2 over the energies E_1, ..., E_N that diagonalize_quadratic_tightbinding (hopping operators) or diagonalize_bdg (hopping and pairing operators, or quadratic Majorana operators) returns for the same Operator, one for every choice of the signs, with multiplicity.", "quantifier": "all quadratic Fermion and Majorana Operators with real coefficients, any number of orbitals, all exact eigensolvers, with and without zero modes", "why_tests_cant": "relates the spectrum of a matrix of dimension 2**N to one of dimension N or 2N for every N", "anchors": ["qosy/diagonalization.py:diagonalize", "qosy/diagonalization.py:diagonalize_quadratic_tightbinding", "qosy/diagonalization.py:diagonalize_bdg", "qosy/conversion.py:convert"]}
{"id": "C101", "title": "The energies of diagonalize belong to the operator, not to its description", "statement": "diagonalize(op, n) for a Hermitian Operator returns the same energies whatever eigensolver is used; with num_vecs=k they are the first k of all energies. Permuting the labels with label_permutation, applying time_reversal() or particle_hole(), or converting the Operator to another type does not change the energies (for conversions to or from Fermion type the mean energy, which diagonalize subtracts for Fermion Operators, appears or disappears). With m more sites than the Operator needs every energy is found 2**m times. The energies are the eigenvalues of the Operator in every representation of the n spins by Hermitian matrices, not only in the one that to_matrix uses.", "quantifier": "all Hermitian Operators of the three types on any number of sites, all permutations, all numbers of additional sites, all exact eigensolvers, all Hermitian representations of the Pauli operators", "why_tests_cant": "a statement about spectra of matrices of dimension 2**n for all n and about all permutations and representations", "anchors": ["qosy/diagonalization.py:diagonalize", "qosy/transformation.py:label_permutation", "qosy/transformation.py:time_reversal", "qosy/transformation.py:particle_hole", "qosy/conversion.py:convert"]}
{"id": "C102", "title": "Symmetries of an Operator act on the operators that commute with it", "statement": "Let T be a Transformation made with * from label_permutation(s), time_reversal() and, for Majorana strings, particle_hole(). T.apply carries the (anti)commutator of two Operators to the (anti)commutator of their images (for commutators with a minus sign for each time_reversal(), because Transformations are linear), as long as no term is below the tolerance. If T.apply(H) is H or -H, then T.apply maps every operator that (anti)commutes with H to one that (anti)commutes with H; for every basis that T maps to itself, symmetry_matrix(basis, T) commutes with commutant_matrix(basis, H), and it maps the space spanned by the vectors of commuting_operators(basis, H) to itself, whatever the tolerance.", "quantifier": "all Pauli and Majorana Operators on any number of sites, all products of the symmetries, all bases closed under them, both operation modes, all exact eigensolvers, all tolerances", "why_tests_cant": "relates three functions of the library for all operators, permutations and bases", "anchors": ["qosy/transformation.py:label_permutation", "qosy/transformation.py:time_reversal", "qosy/transformation.py:particle_hole", "qosy/transformation.py:symmetry_matrix", "qosy/algebra.py:commutant_matrix", "qosy/core.py:commuting_operators", "qosy/algebra.py:commutator", "qosy/algebra.py:anticommutator"]}
{"id": "C103", "title": "Liouvillian matrices and structure constants form the adjoint representation", "statement": "liouvillian_matrix(basis, O) is linear in O. If X = commutator(A, B) (no term below the tolerance), then the Liouvillian matrix of X equals L_B L_A - L_A L_B, where the second matrix of each product is computed on the extended basis of the first; this holds string by string for every basis. For an Operator with real coefficients the entries between strings of the basis are imaginary and form a Hermitian matrix, which _ladder_operators relies on. The constants returned by structure_constants(basis, basis) are antisymmetric in all three strings, and satisfy the Jacobi identity if the basis contains all commutators.", "quantifier": "all bases and Operators of Pauli or Majorana strings, all tolerances up to one", "why_tests_cant": "an identity between matrices of unbounded size for all bases and operators", "anchors": ["qosy/algebra.py:liouvillian_matrix", "qosy/algebra.py:structure_constants", "qosy/algebra.py:commutator"]}
{"id": "C104", "title": "_ladder_operators_original returns the ladder operators", "statement": "_ladder_operators_original(basis, O) for an Operator with real coefficients returns operators R with positive values delta such that [O, R] = delta R, each normalised and supported in the basis, together spanning all ladder operators over the basis with values above the tolerance; without sparsification they are orthogonal, with it they are sorted by their values. An exception is one of a numerical routine, so the assertion that the projected matrix is Hermitian never fails.", "quantifier": "all bases and Operators of Pauli or Majorana strings, all tolerances, with and without sparsification, all numerical routines that satisfy their contracts", "why_tests_cant": "quantifies over bases of any size and over every result the numerical routines may return, in particular for degenerate eigenvalues", "anchors": ["qosy/core.py:_ladder_operators_original"]}
{"id": "C105", "title": "States, density matrices, entropies and site permutations fit together", "statement": "For vectors v, w of 2**n numbers and a permutation T of the n sites: reduced_density_matrix((apply_transformation(T, v), apply_transformation(T, w)), permuted labels, n) equals reduced_density_matrix((v, w), labels, n), so Renyi entropies of a permuted region in the permuted state are unchanged; listing the labels in another order permutes the bits of rows and columns of the reduced matrix and leaves the entropies unchanged; the reduced matrix is the matrix (to_matrix) of the Operator on the complete cluster_basis whose coefficients are the expectation values <w|S'|v> / 2**m of the strings moved to the chosen sites; if v is an eigenvector of to_matrix(A, n) then apply_transformation(T, v) is an eigenvector of to_matrix(T(A), n) with the same eigenvalue, and of to_matrix(A, n) itself if T is a symmetry of A; and <Tu|T(A)|Tv> = <u|A|v>.", "quantifier": "all numbers of sites, all permutations, all lists of distinct sites in any order, all vectors and operators", "why_tests_cant": "relates five functions with separate index conventions (bit order, permutation direction, label order) for systems of every size", "anchors": ["qosy/diagonalization.py:apply_transformation", "qosy/diagonalization.py:reduced_density_matrix", "qosy/diagonalization.py:renyi_entropy", "qosy/diagonalization.py:to_matrix", "qosy/basis.py:cluster_basis", "qosy/transformation.py:label_permutation"]}
{"id": "C106", "title": "The choice of basis does not matter", "statement": "Replacing the elements of a basis by linear combinations of them (a list of Operators instead of a Basis, another list of Operators, a sub-basis, another order of the strings) changes no result but by that change of coordinates: liouvillian_matrix has the combined columns, commutant_matrix becomes U^dagger C U, commuting_operators finds a combination of the new elements if and only if it finds the same operator among combinations of the old ones, and a sub-basis never gives more operators; the same holds for invariant_operators with orthonormal elements and any Transformation that permutes strings up to signs; the entries of structure_constants, liouvillian_matrix and symmetry_matrix depend only on the strings they belong to, not on their positions or on the other strings.", "quantifier": "all Pauli or Majorana bases and lists of Operators, all linear combinations, operators, operation modes and exact eigensolvers, all transformations", "why_tests_cant": "relates the results of two calls for all bases and all linear combinations", "anchors": ["qosy/algebra.py:liouvillian_matrix", "qosy/algebra.py:commutant_matrix", "qosy/algebra.py:structure_constants", "qosy/core.py:commuting_operators", "qosy/transformation.py:symmetry_matrix"]}
{"id": "C107", "title": "The operators found form an algebra", "statement": "The operators commuting_operators finds are closed under products, commutators and anticommutators as far as the basis holds the strings of the result: products of two operators that both commute or both anticommute with O are found to commute with it, products of one of each kind are found to anticommute. O itself and the identity are found to commute with O if their strings are in the basis, and if O has real coefficients the Hermitian conjugate of every operator found is found.", "quantifier": "all Pauli or Majorana bases, operators, pairs of operators found, modes and exact eigensolvers", "why_tests_cant": "relates the results of several calls and of the operator product for all bases and operators", "anchors": ["qosy/core.py:commuting_operators", "qosy/algebra.py:product", "qosy/algebra.py:commutator", "qosy/algebra.py:anticommutator", "qosy/algebra.py:commutant_matrix"]}
{"id": "C108", "title": "The symmetries of a lattice are represented", "statement": "space_group_symmetry turns the space group of a lattice into Transformations that multiply alike: if (R'', d'') is the product of (R, d) and (R', d') up to the periods of the lattice, then T * T' and T'' agree on all operator strings on the lattice, two calls of apply agree with one, and on a Basis closed under the symmetries symmetry_matrix of T'' is the product of the matrices of T and T'. Symmetries that commute up to periods give commuting Transformations; if the n-th power of a symmetry is a translation by a period, T ** n is the identity. In particular translations commute and add, n translations by one cell along a periodic direction of n cells are the identity, and four rotations by 90 degrees of a periodic square lattice are the identity.", "quantifier": "all unit cells with primitive lattice vectors and resolved orbitals, all sizes and boundary conditions, all symmetries (rotation matrix and displacement), all powers, all strings and operators of every type, exact coordinates", "why_tests_cant": "relates several calls (wrap-around at the boundary, order of composition, relabelling signs) on lattices of every size and for every symmetry", "anchors": ["qosy/transformation.py:space_group_symmetry", "qosy/transformation.py:Transformation.__mul__", "qosy/transformation.py:Transformation.__pow__", "qosy/transformation.py:symmetry_matrix", "qosy/lattice.py:Lattice"]}
{"id": "C109", "title": "Calls without optional arguments do what their names say", "statement": "With every optional argument left out: commuting_operators(basis, O) returns orthonormal vectors whose span holds every operator that commutes with O, and only operators whose commutator with O has squared norm at most 1e-10; liouvillian_matrix and commutant_matrix represent the commutator with O; invariant_operators(basis, T) finds the operators with T(A) = A, in the same sense; add_symmetry(S) asks for operators that commute with S or are invariant under S, and generate() imposes all symmetries together; cluster_basis leaves out the identity; diagonalize returns all eigenstates of a Hermitian operator in order of their energies; renyi_entropy(rho) is the second Renyi entropy.", "quantifier": "all bases, operators, transformations that send strings to plus or minus strings, clusters, states and exact numerical routines", "why_tests_cant": "the meaning of a call depends on default values chosen in the signature, and the claims quantify over all inputs", "anchors": ["qosy/core.py:commuting_operators", "qosy/core.py:invariant_operators", "qosy/core.py:SymmetricOperatorGenerator.add_symmetry", "qosy/core.py:SymmetricOperatorGenerator.generate", "qosy/algebra.py:liouvillian_matrix", "qosy/algebra.py:commutant_matrix", "qosy/basis.py:cluster_basis", "qosy/diagonalization.py:diagonalize", "qosy/diagonalization.py:renyi_entropy"]}
{"id": "C110", "title": "The operators found act on the energy eigenstates as promised", "statement": "Let diagonalize(H) return the energies and eigenstates of an operator H with real coefficients. The matrix of every ladder operator with value d that the search returns turns an eigenstate with energy E into zero or into an eigenstate of the matrix of H with energy E + d, which is again one of the energies listed; if it is listed only once, the result is a multiple of the eigenstate listed with it. Operators found by commuting_operators keep the energy, or negate it if they were asked to anticommute. If a permutation of the sites leaves H unchanged, apply_transformation turns eigenstates into eigenstates with the same energy.", "quantifier": "all Pauli operators with real coefficients, numbers of sites, bases, site permutations, eigenstates and exact numerical routines; closed bases for ladder operators", "why_tests_cant": "relates the results of three independent numerical searches on an exponentially large space for every Hamiltonian", "anchors": ["qosy/core.py:commuting_operators", "qosy/core.py:_ladder_operators", "qosy/diagonalization.py:diagonalize", "qosy/diagonalization.py:to_matrix", "qosy/diagonalization.py:apply_transformation", "qosy/transformation.py:label_permutation"]}
{"id": "C111", "title": "Symmetries show in the energies", "statement": "Let diagonalize return all energies of an operator with real coefficients. If the operator is a sum of Pauli strings on an odd number of sites and time_reversal does not change it, every energy occurs an even number of times (Kramers degeneracy). The same holds on any number of sites if two strings commute with every string of the operator and anticommute with each other. If time_reversal, particle_hole (also called charge_conjugation) or a permutation of the labels turns the operator into its negative, every energy E occurs exactly as often as -E.", "quantifier": "all Pauli operators with real coefficients on any odd number of sites (degeneracy); all Pauli and Majorana operators with real coefficients on any number of sites (symmetric energies; Majorana operators for particle-hole); all label permutations; all exact eigensolvers", "why_tests_cant": "a statement about multiplicities in exponentially long lists of eigenvalues for every symmetric Hamiltonian", "anchors": ["qosy/transformation.py:time_reversal", "qosy/transformation.py:particle_hole", "qosy/transformation.py:label_permutation", "qosy/diagonalization.py:diagonalize"]}
{"id": "C112", "title": "The greedy search finds what commutes", "statement": "Let selected_ci_greedy search with one operator H with real coefficients, without target_operator, orth_ops and transformations. In each step the commutator norm reported is zero exactly if the operator found commutes with H, and exactly if the strings of its basis have any linear combination (with complex coefficients, not all zero) that commutes with H. This is the case exactly if commuting_operators, called with this basis and H and a small enough tolerance, returns at least one vector. The best norm returned is zero exactly if the basis of some step has such a combination, and then the best operator returned commutes with H.", "quantifier": "all Pauli and Majorana operators H with real coefficients, all initial operators, all numbers of steps and terms, thresholds and sizes; all numerical routines as specified", "why_tests_cant": "an agreement of two different algorithms for all histories of the search", "anchors": ["qosy/algorithms.py:selected_ci_greedy", "qosy/core.py:commuting_operators"]}
{"id": "C113", "title": "The energies follow the arithmetic of operators", "statement": "The energies returned by diagonalize for Hermitian operators fit the arithmetic of Operator objects. For a number x >= 0, x*A has the energies of A times x; -A has the negative energies in the opposite order; adding x times the identity shifts all energies by x. The i-th energy of A plus the j-th energy of B is at most the (i+j)-th energy of A+B (counting from 0, so the ground state energy of a sum is at least the sum of the ground state energies), also if only num_vecs energies are requested. For sums of Pauli or Majorana strings with real coefficients on n sites, the energies add up to 2^n times the coefficient of the identity, their squares add up to 2^n times the square of norm(), and no energy exceeds the sum of the magnitudes of the coefficients.", "quantifier": "all Hermitian operators of the three types on any number of sites that diagonalize accepts (multiples, negatives, sums); all Pauli and Majorana operators (identity, norms); all exact eigensolvers", "why_tests_cant": "inequalities between exponentially long lists of eigenvalues for every pair of operators", "anchors": ["qosy/diagonalization.py:diagonalize", "qosy/basis.py:Operator.__add__", "qosy/basis.py:Operator.__mul__", "qosy/basis.py:Operator.__neg__", "qosy/basis.py:Operator.norm"]}
{"id": "C114", "title": "Pauli and Majorana descriptions give the same results", "statement": "If the elements of a Basis (or of a list of Operators) and an Operator on the sites 0..n-1 are converted from Pauli to Majorana strings with convert, or back, then commutant_matrix has the same entries, and commuting_operators returns the same vectors, for every eigensolver, tolerance and num_vecs; generate_lie_algebra of the converted strings returns exactly the converted strings of the Lie algebra, and as many; and Operator.norm of an Operator on canonical strings is unchanged. An Operator on canonical strings that is converted and converted back has its old coefficients. include_identity makes no difference.", "quantifier": "all Bases and lists of Operators of Pauli or Majorana strings on any number of sites, all Operators, the three operation modes, all eigensolvers and tolerances", "why_tests_cant": "two different code paths through strings of very different length must agree for every input", "anchors": ["qosy/conversion.py:convert", "qosy/algebra.py:commutant_matrix", "qosy/core.py:commuting_operators", "qosy/algebra.py:generate_lie_algebra", "qosy/basis.py:Operator.norm"]}
{"id": "C115", "title": "Cleaning up or completing changes nothing when it is repeated", "statement": "sort_sign of a sorted result returns it with sign 1; remove_duplicates of its own result removes nothing, for any equivalence; Operator.remove_zeros with one tolerance after another leaves the terms that the larger tolerance leaves, and nothing more is removed by a tolerance that is not larger; gram_schmidt of its own result with a tolerance below 1 returns exactly that result; converting an Operator to the type it has changes no coefficient; generate_lie_algebra lists its generators first, returns its own result unchanged and in the same order when applied to it, generates nothing new from members of a generated Lie algebra, and returns the same strings for any order of the generators.", "quantifier": "all lists, equivalences, well-formed Operators, tolerances, matrices of any size, and all Bases of canonical Pauli or Majorana strings", "why_tests_cant": "idempotence, monotonicity and order independence relate several runs on unbounded inputs", "anchors": ["qosy/tools.py:sort_sign", "qosy/tools.py:remove_duplicates", "qosy/basis.py:Operator.remove_zeros", "qosy/tools.py:gram_schmidt", "qosy/conversion.py:convert", "qosy/algebra.py:generate_lie_algebra"]}
{"id": "C116", "title": "Transforming the problem transforms the answer", "statement": "Let T be a product of label_permutation(s), time_reversal() and, for Majorana strings, particle_hole(); T need not be a symmetry of anything. If the elements of a Basis (or of a list of Operators) and an Operator are transformed with T.apply, then commutant_matrix has the same entries, and commuting_operators returns the same vectors for every eigensolver, tolerance and num_vecs, so that the operators found are the images of those found before. generate_lie_algebra of the images of strings returns exactly the images of the strings of the Lie algebra, and as many. T.apply does not change Operator.norm.", "quantifier": "all Pauli and Majorana Operators, Bases and lists of Operators on any number of sites, all products of the transformations, commutators and anticommutators, all eigensolvers and tolerances", "why_tests_cant": "equivariance relates two runs of a search on differently labelled inputs whose internal orders and signs differ", "anchors": ["qosy/transformation.py:Transformation.apply", "qosy/transformation.py:label_permutation", "qosy/transformation.py:time_reversal", "qosy/transformation.py:particle_hole", "qosy/algebra.py:commutant_matrix", "qosy/core.py:commuting_operators", "qosy/algebra.py:generate_lie_algebra", "qosy/basis.py:Operator.norm"]}
{"id": "C117", "title": "Results degrade gracefully with rounding errors of the eigensolver", "statement": "Let the eigenvalues and eigenvectors that the eigensolver hands to commuting_operators, invariant_operators or diagonalize be wrong by at most d < 1 (deviation from unitarity and residual, in operator norm); nothing else is assumed about the eigensolver. Then the vectors returned by commuting_operators are orthonormal up to d, the squared norm of the bracket of any operator in their span with the given Operator is at most ((1+d) tol + d)/(1-d) times its own squared norm, and every operator that commutes exactly is within the relative distance d + (1+d) d/tol of the span. For all small tolerances and errors of at most a quarter of the tolerance, the number of returned vectors is exactly the number of independent commuting operators. The same bounds (with an additional factor 2) hold for the invariance of the operators returned by invariant_operators, and for transformations that are their own inverse the number of returned vectors is exact for every tolerance up to 1/4 and errors up to a quarter of it. The energies of diagonalize are sorted, each is within d/(1-d) of an exact energy, each exact energy is within (1+d) d/(1-d) of a returned one, and the vectors are normalised eigenvectors up to d.", "quantifier": "all Pauli and Majorana Bases, lists of Operators and Operators, all modes, tolerances, error sizes below 1 and eigensolvers; all Hermitian Operators on any number of sites for the energies", "why_tests_cant": "tests run with one eigensolver on one machine, and compare with fixed thresholds; whether an error of one size can change the number of operators found depends on the spectrum of each input", "anchors": ["qosy/core.py:commuting_operators", "qosy/core.py:invariant_operators", "qosy/diagonalization.py:diagonalize", "qosy/algebra.py:commutant_matrix"]}
{"id": "C118", "title": "Tolerances, sizes and numbers of steps act in one direction", "statement": "Making a parameter more generous never loses a result. With a larger tolerance, commuting_operators and invariant_operators return the same vectors and possibly more, in the same order, and raise an exception in exactly the same cases. With a larger tolerance, remove_zeros keeps no term that it removed before. Truncating a Basis to a smaller size gives the beginning of the truncation to a larger size. With more labels, a larger radius, more allowed orbitals or more allowed numbers of orbitals, cluster_basis and distance_basis return at least the same strings. With a larger num_steps and otherwise the same arguments, selected_ci_greedy returns the same operators and commutator norms and possibly more, and the best commutator norm does not increase.", "quantifier": "all arguments, all pairs of tolerances, sizes, radii, label lists and numbers of steps, all eigensolvers and other numerical routines", "why_tests_cant": "a test compares two values of a parameter on one input; results that are lost appear only for eigenvalues, coefficients or distances between the two values", "anchors": ["qosy/core.py:commuting_operators", "qosy/core.py:invariant_operators", "qosy/basis.py:Operator.remove_zeros", "qosy/algorithms.py:_truncate_basis", "qosy/basis.py:cluster_basis", "qosy/basis.py:distance_basis", "qosy/algorithms.py:selected_ci_greedy"]}
{"id": "C119", "title": "Symmetries found separately hold for their products", "statement": "Search one Basis (or list of orthonormal Operators) with invariant_operators for a Transformation T, for a Transformation U and for the product T * U. The mode of the last search is symmetry if the modes of the first two agree, and antisymmetry otherwise. Then every operator that two of the three searches find is also found by the third. An operator found for T is found for every power T ** n, with the mode antisymmetry exactly for odd powers of an antisymmetry. This holds for all tolerances below a positive bound.", "quantifier": "all Transformations that map strings one to one to strings up to a sign, such as label permutations, lattice symmetries, time reversal and particle-hole, their products, all orthonormal inputs, all modes, all powers and all exact eigensolvers", "why_tests_cant": "a test compares a few pairs of symmetries on small bases; that products of Transformations, the signs of the modes and the eigenspaces fit together is a statement about all of them", "anchors": ["qosy/core.py:invariant_operators", "qosy/transformation.py:Transformation.__mul__", "qosy/transformation.py:Transformation.__pow__"]}
{"id": "C120", "title": "What commutes with two operators commutes with all that is built from them", "statement": "Search one Basis or list of Operators with commuting_operators for the Operators O1, O2 and O1 + O2 in the same mode: every operator that two of the searches find is found by the third. The operators found for c * O with c different from zero are those found for O. An operator found for O1 in one mode and for O2 in another is found for the product, the commutator and the anticommutator of O1 and O2, in the mode commutator if the two modes agree and in the mode anticommutator otherwise, if no product of coefficients is below the tolerance of the product. All of this holds for all tolerances of commuting_operators below a positive bound.", "quantifier": "all Pauli or Majorana Operators, all Bases and non-empty lists of Operators of that type, all modes, all non-zero factors and all exact eigensolvers", "why_tests_cant": "a test computes a few commutants; that sums, products and searches fit together for all Operators cannot be sampled", "anchors": ["qosy/core.py:commuting_operators", "qosy/basis.py:Operator.__add__", "qosy/basis.py:Operator.__mul__", "qosy/algebra.py:product", "qosy/algebra.py:commutator", "qosy/algebra.py:anticommutator"]}
{"id": "C121", "title": "Operators on different orbitals do not see each other", "statement": "Two Pauli strings without a common orbital have commutator zero. Two Majorana strings without a common orbital have anticommutator zero if both contain an odd number of the operators a and b, and commutator zero otherwise. The same holds for Operators whose strings all stand in that relation, and commuting_operators finds every operator over the given Basis that has no orbital in common with the Operator searched for.", "quantifier": "all Pauli or Majorana strings, all Operators and Bases of such strings, all tolerances below a positive bound and all exact eigensolvers", "why_tests_cant": "a test tries a few strings; locality has to hold for all lengths, gaps and interleavings of orbitals", "anchors": ["qosy/algebra.py:commutator", "qosy/algebra.py:anticommutator", "qosy/algebra.py:_operation_opstring", "qosy/core.py:commuting_operators"]}
{"id": "C122", "title": "Strings commute or anticommute by counting", "statement": "For two Pauli or two Majorana strings count the pairs of a letter of the one and a letter of the other that anticommute: different letters on the same orbital and, for Majorana strings, letters a or b on different orbitals. commutator returns the zero result (0, None) exactly if their number is even, anticommutator exactly if it is odd; product of the strings in both orders returns the same string with coefficients that differ by a minus sign for every such pair. For an Operator of a single string commuting_operators finds in a Basis exactly the combinations of the strings whose count has the right parity; for any Operator it finds all combinations of the strings whose counts with all strings of the Operator have the right parity, whatever the coefficients are. If the count is even for all pairs of generators, generate_lie_algebra returns the generators and nothing else; for two different strings with an odd count it returns these two and the string of their product.", "quantifier": "all Pauli or Majorana strings, all Bases of such strings, all non-zero coefficients, all tolerances below a positive bound and all exact eigensolvers", "why_tests_cant": "a test tries a few strings; the rule relates lengths, gaps and interleavings of orbitals of all strings to the answer", "anchors": ["qosy/algebra.py:commutator", "qosy/algebra.py:anticommutator", "qosy/algebra.py:_operation_opstring", "qosy/core.py:commuting_operators"]}
{"id": "C123", "title": "The energies of anticommuting strings are plus and minus the norm", "statement": "Let an Operator be a sum of Pauli strings or of Majorana strings with real coefficients on n sites, any two of which anticommute (the number of anticommuting pairs of letters is odd; a single string is such a sum). Every energy that diagonalize(op, n) returns is op.norm() or -op.norm(), and if the identity is not the string of the Operator both occur equally often among the 2**n energies.", "quantifier": "all sums of pairwise anticommuting strings with real coefficients, all numbers of sites and all exact eigensolvers", "why_tests_cant": "a test diagonalises a few operators; that the energies are known beforehand for all such sums cannot be sampled", "anchors": ["qosy/diagonalization.py:diagonalize", "qosy/basis.py:Operator.norm", "qosy/algebra.py:anticommutator"]}
{"id": "C124", "title": "The energies of commuting strings are signed sums of the coefficients", "statement": "Let an Operator be a sum of Pauli strings or of Majorana strings with real coefficients on n sites, any two of which commute (the number of anticommuting pairs of letters is even), as in stabilizer models. Every energy that diagonalize(op, n) returns is the sum of all coefficients with a sign each.", "quantifier": "all sums of pairwise commuting strings with real coefficients, all numbers of sites and all exact eigensolvers", "why_tests_cant": "a test diagonalises a few operators; that the energies have this form for all such sums cannot be sampled", "anchors": ["qosy/diagonalization.py:diagonalize", "qosy/algebra.py:commutator"]}
