{
 "claims": [
  {
   "property": "C01",
   "status": "proved",
   "theorems": [
    "Qosy.C01_pauli_product"
   ],
   "note": "all pairs of valid Pauli strings, any algebra satisfying the Pauli relations"
  },
  {
   "property": "C02",
   "status": "proved",
   "theorems": [
    "Qosy.C02_majorana_product"
   ],
   "note": "all pairs of valid Majorana strings, any algebra satisfying the Majorana relations"
  },
  {
   "property": "C03",
   "status": "proved",
   "theorems": [
    "Qosy.C03_pauli_brackets",
    "Qosy.C03_majorana_brackets"
   ],
   "note": ""
  },
  {
   "property": "C04",
   "status": "proved",
   "theorems": [
    "Qosy.C04_pauli_closed",
    "Qosy.C04_majorana_closed"
   ],
   "note": ""
  },
  {
   "property": "C05",
   "status": "proved",
   "theorems": [
    "Qosy.C05_product_self",
    "Qosy.C05_pauli_square",
    "Qosy.C05_majorana_square",
    "Qosy.C05_pauli_hermitian",
    "Qosy.C05_majorana_hermitian",
    "Qosy.C05_explicit_prefactor"
   ],
   "note": "strings built with an explicit imaginary prefactor are outside the claim; C05_explicit_prefactor shows the boundary"
  },
  {
   "property": "C06",
   "status": "proved",
   "theorems": [
    "Qosy.C06_pauli",
    "Qosy.C06_majorana",
    "Qosy.C06_public",
    "Qosy.C06_errors"
   ],
   "note": ""
  },
  {
   "property": "C07",
   "status": "proved",
   "theorems": [
    "Qosy.C07_add",
    "Qosy.C07_smul",
    "Qosy.C07_neg",
    "Qosy.C07_sub",
    "Qosy.C07_type_mismatch",
    "Qosy.C07_constructor",
    "Qosy.C07_den"
   ],
   "note": ""
  },
  {
   "property": "C08",
   "status": "partial",
   "theorems": [
    "Qosy.C08_refuted",
    "Qosy.C08_frame_partial",
    "Qosy.C08_histories_partial",
    "Qosy.C08_effect",
    "Qosy.C08_failed",
    "Qosy.C08_new_objects"
   ],
   "note": "false in general: C08_refuted (Operators sharing one Basis object). Proved for all histories that do not share objects, plus a frame theorem for objects that do not share the basis"
  },
  {
   "property": "C09",
   "status": "partial",
   "theorems": [
    "Qosy.C09_constructor",
    "Qosy.C09_getitem",
    "Qosy.C09_refuted",
    "Qosy.C09_histories_partial",
    "Qosy.C09_inplace_union_partial"
   ],
   "note": "false in general: C09_refuted (one list handed to two Basis constructors). Proved for all other histories"
  },
  {
   "property": "C10",
   "status": "proved",
   "theorems": [
    "Qosy.C10_unchanged",
    "Qosy.C10_unchanged_string",
    "Qosy.C10_union",
    "Qosy.C10_string",
    "Qosy.C10_laws"
   ],
   "note": ""
  },
  {
   "property": "C11",
   "status": "proved",
   "theorems": [
    "Qosy.C11_to_vector",
    "Qosy.C11_key_error",
    "Qosy.C11_inverse"
   ],
   "note": ""
  },
  {
   "property": "C12",
   "status": "proved",
   "theorems": [
    "Qosy.C12_unchanged",
    "Qosy.C12_remove_zeros",
    "Qosy.C12_tol_zero"
   ],
   "note": ""
  },
  {
   "property": "C13",
   "status": "proved",
   "theorems": [
    "Qosy.C13_unchanged",
    "Qosy.C13_norm_smul",
    "Qosy.C13_norm_pos",
    "Qosy.C13_normalize"
   ],
   "note": ""
  },
  {
   "property": "C14",
   "status": "proved",
   "theorems": [
    "Qosy.C14_pauli",
    "Qosy.C14_majorana",
    "Qosy.C14_unique_pauli",
    "Qosy.C14_unique_majorana"
   ],
   "note": "Pauli and Majorana, all three modes; \u2203 form also shows the call never fails; uniqueness of the expansion in non-trivial representations"
  },
  {
   "property": "C15",
   "status": "proved",
   "theorems": [
    "Qosy.C15_pauli",
    "Qosy.C15_majorana",
    "Qosy.C15_empty"
   ],
   "note": "Basis and list-of-Operators forms"
  },
  {
   "property": "C16",
   "status": "proved",
   "theorems": [
    "Qosy.C16_pauli",
    "Qosy.C16_majorana"
   ],
   "note": "positive semidefinite, quadratic form, kernel"
  },
  {
   "property": "C17",
   "status": "proved",
   "theorems": [
    "Qosy.C17_pauli",
    "Qosy.C17_majorana"
   ],
   "note": "Basis branch; the list-of-Operators branch (numerical linear algebra) is not part of this claim"
  },
  {
   "property": "C18",
   "status": "proved",
   "theorems": [
    "Qosy.C18_pauli",
    "Qosy.C18_majorana",
    "Qosy.C18_fermion",
    "Qosy.C18_errors"
   ],
   "note": "Pauli, Majorana and Fermion; exact membership, no repetitions, ordering by size, error cases"
  },
  {
   "property": "C19",
   "status": "proved",
   "theorems": [
    "Qosy.C19_pauli",
    "Qosy.C19_majorana",
    "Qosy.C19_fermion"
   ],
   "note": "Pauli, Majorana, Fermion; any set iteration order; the identity is never listed (include_identity is ignored by the code)"
  },
  {
   "property": "C20",
   "status": "proved",
   "theorems": [
    "Qosy.C20_maximal_cliques",
    "Qosy.C20_recursion_limit"
   ],
   "note": "any set iteration order; recursion limit at least the number of vertices"
  },
  {
   "property": "C21",
   "status": "proved",
   "theorems": [
    "Qosy.C21_connected_components",
    "Qosy.C21_mode"
   ],
   "note": "both modes; same sets in the same order; invalid mode"
  },
  {
   "property": "C22",
   "status": "proved",
   "theorems": [
    "Qosy.C22_sort_sign",
    "Qosy.C22_inversions_spec"
   ],
   "note": "integer vectors; np.argsort mergesort modelled by its contract (stable sort)"
  },
  {
   "property": "C23",
   "status": "proved",
   "theorems": [
    "Qosy.C23_sign",
    "Qosy.C23_sign_array",
    "Qosy.C23_sign_mul"
   ],
   "note": ""
  },
  {
   "property": "C24",
   "status": "proved",
   "theorems": [
    "Qosy.C24_compare",
    "Qosy.C24_compare_iff",
    "Qosy.C24_total_order"
   ],
   "note": ""
  },
  {
   "property": "C25",
   "status": "proved",
   "theorems": [
    "Qosy.C25_snoc",
    "Qosy.C25_remove_duplicates"
   ],
   "note": ""
  },
  {
   "property": "C26",
   "status": "proved",
   "theorems": [
    "Qosy.C26_compose",
    "Qosy.C26_compose_entries",
    "Qosy.C26_group"
   ],
   "note": "non-negative entries (Python negative indices are not modelled)"
  },
  {
   "property": "C27",
   "status": "proved",
   "theorems": [
    "Qosy.C27_gram_schmidt",
    "Qosy.C27_span",
    "Qosy.C27_prefix",
    "Qosy.C27_zero_first_column"
   ],
   "note": "exact arithmetic over the complex numbers; the first column must not be zero (C27_zero_first_column: division by zero otherwise)"
  },
  {
   "property": "C28",
   "status": "proved",
   "theorems": [
    "Qosy.C28_intersection",
    "Qosy.C28_tolerance",
    "Qosy.C28_error"
   ],
   "note": "exact eigensolver as a contract on eigh; gap hypothesis for equality with the intersection, and a quantitative bound without it (C28_tolerance)"
  },
  {
   "property": "C29",
   "status": "proved",
   "theorems": [
    "Qosy.C29_pauli_to_majorana",
    "Qosy.C29_majorana_to_pauli",
    "Qosy.C29_pauli_roundtrip",
    "Qosy.C29_majorana_roundtrip",
    "Qosy.C29_negative_labels"
   ],
   "note": "labels must be non-negative; C29_negative_labels shows the silent failure otherwise"
  },
  {
   "property": "C30",
   "status": "proved",
   "theorems": [
    "Qosy.C30_fermion_to_majorana",
    "Qosy.C30_identity_fails",
    "Qosy.C30_zero_fails"
   ],
   "note": "fewer than 52 orbitals; results without terms raise ValueError (C30_identity_fails, C30_zero_fails)"
  },
  {
   "property": "C31",
   "status": "proved",
   "theorems": [
    "Qosy.C31_majorana_to_fermion"
   ],
   "note": ""
  },
  {
   "property": "C32",
   "status": "partial",
   "theorems": [
    "Qosy.C32_string",
    "Qosy.C32_operator",
    "Qosy.C32_matrix",
    "Qosy.C32_missing",
    "Qosy.C32_cluster_pauli_majorana",
    "Qosy.C32_cluster_majorana_pauli",
    "Qosy.C32_cluster_fermion_majorana",
    "Qosy.C32_cluster_fermion_pauli",
    "Qosy.C32_cluster_gap_refuted",
    "Qosy.C32_cluster_refuted"
   ],
   "note": "conversion of strings and operators between all three types, conversion_matrix and its KeyError are proved; that complete cluster bases suffice is proved for Fermion to Majorana on any labels, and between Pauli and Majorana and from Fermion to Pauli on the labels 0..n-1; refuted for labels with a gap (C32_cluster_gap_refuted) and for Majorana to Fermion on 3 orbitals (C32_cluster_refuted)"
  },
  {
   "property": "C33",
   "status": "partial",
   "theorems": [
    "Qosy.C33_parse",
    "Qosy.C33_spacing",
    "Qosy.C33_roundtrip_partial",
    "Qosy.C33_refuted",
    "Qosy.C33_identity_refuted",
    "Qosy.C33_mixed_refuted",
    "Qosy.C33_basis_partial"
   ],
   "note": "false in general: C33_refuted (prefactor stored as 1+0j, from the documented text 1.0 X 1), C33_identity_refuted, C33_mixed_refuted. Proved for all other strings built from well-formed arguments"
  },
  {
   "property": "C34",
   "status": "partial",
   "theorems": [
    "Qosy.C34_equal_hash_partial",
    "Qosy.C34_names_distinct",
    "Qosy.C34_refuted",
    "Qosy.C34_fermion_refuted"
   ],
   "note": "false: C34_refuted and C34_fermion_refuted. Proved for strings built with the same prefactor argument; names are injective on well-formed strings of one type"
  },
  {
   "property": "C35",
   "status": "partial",
   "theorems": [
    "Qosy.C35_constructor",
    "Qosy.C35_opstring_sound",
    "Qosy.C35_opstring_errors",
    "Qosy.C35_unknown_type_refuted",
    "Qosy.C35_wrong_kind_refuted",
    "Qosy.C35_length_refuted",
    "Qosy.C35_prefactor_refuted"
   ],
   "note": "false: C35_unknown_type_refuted, C35_wrong_kind_refuted, C35_length_refuted, C35_prefactor_refuted. Proved: exact acceptance of the constructor for matching lengths, soundness and error cases of opstring"
  },
  {
   "property": "C36",
   "status": "proved",
   "theorems": [
    "Qosy.C36_pauli",
    "Qosy.C36_majorana",
    "Qosy.C36_product",
    "Qosy.C36_pauli_operators",
    "Qosy.C36_majorana_operators",
    "Qosy.C36_errors"
   ],
   "note": "labels non-negative; errors in C36_errors"
  },
  {
   "property": "C37",
   "status": "proved",
   "theorems": [
    "Qosy.C37_compose",
    "Qosy.C37_compose_operators",
    "Qosy.C37_identity",
    "Qosy.C37_inverse"
   ],
   "note": "the identity permutation also sorts strings with unsorted labels"
  },
  {
   "property": "C38",
   "status": "proved",
   "theorems": [
    "Qosy.C38_pauli",
    "Qosy.C38_majorana",
    "Qosy.C38_operators_pauli",
    "Qosy.C38_operators_majorana",
    "Qosy.C38_product",
    "Qosy.C38_involution",
    "Qosy.C38_fermions",
    "Qosy.C38_exists",
    "Qosy.C38_complex_coefficients"
   ],
   "note": "spinless form; C38_complex_coefficients shows that apply is linear, not antilinear, on complex coefficients (the code warns)"
  },
  {
   "property": "C39",
   "status": "proved",
   "theorems": [
    "Qosy.C39_majorana",
    "Qosy.C39_operators",
    "Qosy.C39_product",
    "Qosy.C39_involution",
    "Qosy.C39_errors",
    "Qosy.C39_fermions"
   ],
   "note": ""
  },
  {
   "property": "C40",
   "status": "proved",
   "theorems": [
    "Qosy.C40_mul",
    "Qosy.C40_mul_string",
    "Qosy.C40_assoc",
    "Qosy.C40_pow_errors",
    "Qosy.C40_pow",
    "Qosy.C40_builtin",
    "Qosy.C40_dropped"
   ],
   "note": "for coefficients above the drop tolerance; C40_dropped shows what happens below it"
  },
  {
   "property": "C41",
   "status": "proved",
   "theorems": [
    "Qosy.C41_entries",
    "Qosy.C41_coordinates",
    "Qosy.C41_mul",
    "Qosy.C41_signed",
    "Qosy.C41_permutation",
    "Qosy.C41_operators",
    "Qosy.C41_empty"
   ],
   "note": "also the list-of-Operators branch, with the contract C P C = C for nla.pinv"
  },
  {
   "property": "C42",
   "status": "partial",
   "theorems": [
    "Qosy.C42_group",
    "Qosy.C42_no_generators",
    "Qosy.C42_symmetrize_partial",
    "Qosy.C42_normalizing",
    "Qosy.C42_commuting",
    "Qosy.C42_single_generator",
    "Qosy.C42_refuted_identity",
    "Qosy.C42_refuted_incomplete"
   ],
   "note": "false in general: identity or repeated generators are counted twice and the group may be incomplete (C42_refuted_*); proved for distinct non-identity generators whose products of powers are the whole group, e.g. a single generator, commuting generators, or each normalizing the earlier ones"
  },
  {
   "property": "C43",
   "status": "proved",
   "theorems": [
    "Qosy.C43_configurations",
    "Qosy.C43_string",
    "Qosy.C43_tensor",
    "Qosy.C43_operator",
    "Qosy.C43_product",
    "Qosy.C43_hermitian_unitary",
    "Qosy.C43_errors",
    "Qosy.C43_negative_label"
   ],
   "note": "labels must lie in range(n); negative labels are silently accepted by the code (C43_negative_label)"
  },
  {
   "property": "C44",
   "status": "proved",
   "theorems": [
    "Qosy.C44_orthonormal",
    "Qosy.C44_to_vector",
    "Qosy.C44_complete"
   ],
   "note": "strings with sorted labels, as every library function returns them"
  },
  {
   "property": "C45",
   "status": "proved",
   "theorems": [
    "Qosy.C45_configuration",
    "Qosy.C45_vector",
    "Qosy.C45_states",
    "Qosy.C45_unitary",
    "Qosy.C45_compose",
    "Qosy.C45_intertwines",
    "Qosy.C45_errors"
   ],
   "note": "permutations of range(n); the pairs returned for other transformations are errors (C45_errors)"
  },
  {
   "property": "C46",
   "status": "proved",
   "theorems": [
    "Qosy.C46_partial_trace",
    "Qosy.C46_transition",
    "Qosy.C46_labels",
    "Qosy.C46_density",
    "Qosy.C46_expectation"
   ],
   "note": ""
  },
  {
   "property": "C47",
   "status": "proved",
   "theorems": [
    "Qosy.C47_majorana",
    "Qosy.C47_fermion",
    "Qosy.C47_errors"
   ],
   "note": "Fermion operators of hopping and pairing strings too; there the conversion drops a constant (C47_fermion states it)"
  },
  {
   "property": "C48",
   "status": "proved",
   "theorems": [
    "Qosy.C48_tight_binding",
    "Qosy.C48_bdg",
    "Qosy.C48_bdg_majorana",
    "Qosy.C48_tight_binding_modes",
    "Qosy.C48_bdg_modes",
    "Qosy.C48_bdg_errors",
    "Qosy.C48_tight_binding_errors"
   ],
   "note": "real coefficients; Majorana input of diagonalize_bdg included; eigenvectors give ladder operators"
  },
  {
   "property": "C49",
   "status": "proved",
   "theorems": [
    "Qosy.C49_pauli",
    "Qosy.C49_majorana",
    "Qosy.C49_exact_pauli",
    "Qosy.C49_exact_majorana",
    "Qosy.C49_empty"
   ],
   "note": "exact for all tolerances below a positive bound (C49_exact_*), otherwise bounded by the tolerance; the sparse num_vecs branch is C90"
  },
  {
   "property": "C50",
   "status": "proved",
   "theorems": [
    "Qosy.C50_signed",
    "Qosy.C50_exact",
    "Qosy.C50_involution",
    "Qosy.C50_permutation",
    "Qosy.C50_reflection",
    "Qosy.C50_time_reversal",
    "Qosy.C50_particle_hole",
    "Qosy.C50_error",
    "Qosy.C50_sign",
    "Qosy.C50_contraction",
    "Qosy.C50_norm_increasing_refuted"
   ],
   "note": "transformations that do not increase norms on a closed Basis (C50_contraction); signed injective actions on any Basis or orthonormal Operators; the bound on the norm is needed (C50_norm_increasing_refuted); the sparse num_vecs branch is C91"
  },
  {
   "property": "C51",
   "status": "partial",
   "theorems": [
    "Qosy.C51_pauli_partial",
    "Qosy.C51_majorana_partial",
    "Qosy.C51_one_operator",
    "Qosy.C51_refuted",
    "Qosy.C51_extended_pauli",
    "Qosy.C51_extended_majorana"
   ],
   "note": "proved for all histories where no operator contains strings that an earlier one lacks (in particular one operator throughout); false otherwise (C51_refuted: two operators sharing the cache)"
  },
  {
   "property": "C52",
   "status": "proved",
   "theorems": [
    "Qosy.C52_truncate",
    "Qosy.C52_operator"
   ],
   "note": "any order np.argsort may give to ties; also _truncate_operator"
  },
  {
   "property": "C53",
   "status": "proved",
   "theorems": [
    "Qosy.C53_count",
    "Qosy.C53_bijection",
    "Qosy.C53_index",
    "Qosy.C53_search",
    "Qosy.C53_periodic",
    "Qosy.C53_one_period_only",
    "Qosy.C53_cubic",
    "Qosy.C53_open",
    "Qosy.C53_kagome"
   ],
   "note": "positions resolved by the text format of the lattice (shown for cubic and kagome lattices); wrapping covers one period only (C53_one_period_only)"
  },
  {
   "property": "C54",
   "status": "partial",
   "theorems": [
    "Qosy.C54_distance",
    "Qosy.C54_symmetric",
    "Qosy.C54_index",
    "Qosy.C54_negative",
    "Qosy.C54_orthogonal",
    "Qosy.C54_triangle",
    "Qosy.C54_cubic",
    "Qosy.C54_refuted"
   ],
   "note": "nearest image over one period, symmetry, sign and self-distance proved for all lattices; minimal over all images (and triangle inequality) for orthogonal lattice vectors; false for skewed lattices (C54_refuted)"
  },
  {
   "property": "C55",
   "status": "partial",
   "theorems": [
    "Qosy.C55_total",
    "Qosy.C55_no_expansions",
    "Qosy.C55_partial",
    "Qosy.C55_crystal_partial",
    "Qosy.C55_single",
    "Qosy.C55_refuted"
   ],
   "note": "false for a single generator of order three or more (C55_refuted: only {1, g} is used); proved when two of the generators (or one with itself) multiply to the identity: the atoms and the crystal are invariant (C55_partial, C55_crystal_partial, C55_single); for all finite point groups: termination and the lattice vectors (C55_total); num_expansions=0 raises (C55_no_expansions)"
  },
  {
   "property": "C56",
   "status": "partial",
   "theorems": [
    "Qosy.C56_spectrum_partial",
    "Qosy.C56_modes_partial",
    "Qosy.C56_refuted"
   ],
   "note": "proved when the 2x2 blocks of the real Schur form are aligned, also for the many-body energies; false for other valid Schur forms (C56_refuted)"
  },
  {
   "property": "C57",
   "status": "partial",
   "theorems": [
    "Qosy.C57_refuted",
    "Qosy.C57_one_partial"
   ],
   "note": "false for every system with two or more orbitals: C57_refuted; proved for one orbital (C57_one_partial: unitary)"
  },
  {
   "property": "C58",
   "status": "partial",
   "theorems": [
    "Qosy.C58_pauli_partial",
    "Qosy.C58_majorana_partial",
    "Qosy.C58_norm_unique",
    "Qosy.C58_norm_zero",
    "Qosy.C58_refuted",
    "Qosy.C58_several_pauli_partial",
    "Qosy.C58_several_majorana_partial",
    "Qosy.C58_refuted_target",
    "Qosy.C58_refuted_target_orth"
   ],
   "note": "proved without transformations, with or without orth_ops, for one operator in com_ops (with or without target) and for several (norm with the first one); false with transformations (C58_refuted: the penalty is part of the reported norm) and for a target operator together with several com_ops or orth_ops (C58_refuted_target, C58_refuted_target_orth)"
  },
  {
   "property": "C59",
   "status": "partial",
   "theorems": [
    "Qosy.C59_pauli_partial",
    "Qosy.C59_majorana_partial",
    "Qosy.C59_refuted",
    "Qosy.C59_several_shared",
    "Qosy.C59_several_partial"
   ],
   "note": "proved for one operator in com_ops and no transformations; false for several (C59_refuted); for several the search minimises with their parts in the first one: the number reported is a lower bound of all sums, and operators of at least 20 strings (num_vecs = 1) attain the smallest sum (C58_several_*_partial, C59_several_partial)"
  },
  {
   "property": "C60",
   "status": "partial",
   "theorems": [
    "Qosy.C60_partial",
    "Qosy.C60_refuted"
   ],
   "note": "false: C60_refuted (the coefficients are looked up by position in the truncated basis); proved: basis is the truncation, exact description of the coefficients used"
  },
  {
   "property": "C61",
   "status": "partial",
   "theorems": [
    "Qosy.C61_partial",
    "Qosy.C61_refuted"
   ],
   "note": "false: C61_refuted (vectors are re-sorted by the norm without penalty); proved: the penalised matrix itself is as intended, with a bound on the overlaps of its minimiser"
  },
  {
   "property": "C62",
   "status": "partial",
   "theorems": [
    "Qosy.C62_pauli_partial",
    "Qosy.C62_majorana_partial",
    "Qosy.C62_refuted",
    "Qosy.C62_several_partial",
    "Qosy.C62_several_majorana_partial"
   ],
   "note": "proved without target and transformations for one or several operators in com_ops, with default arguments too: for one operator the only exception is ValueError, for a zero maximal size or a threshold of at least 1/sqrt(n), n the largest number of strings; with transformations see C89_total; false with target_fidelity (C62_refuted, no fuel suffices)"
  },
  {
   "property": "C63",
   "status": "partial",
   "theorems": [
    "Qosy.C63_pauli_partial",
    "Qosy.C63_majorana_partial",
    "Qosy.C63_partial",
    "Qosy.C63_result_partial",
    "Qosy.C63_refuted"
   ],
   "note": "false with transformations: C63_refuted; without them proved for all arguments, several operators in com_ops and all numerical routines: C63_partial, C63_result_partial; C63_pauli_partial and C63_majorana_partial for one operator"
  },
  {
   "property": "C64",
   "status": "partial",
   "theorems": [
    "Qosy.C64_pauli_partial",
    "Qosy.C64_majorana_partial",
    "Qosy.C64_partial",
    "Qosy.C64_several_pauli_partial",
    "Qosy.C64_several_majorana_partial",
    "Qosy.C64_symmetric_pauli_partial",
    "Qosy.C64_symmetric_majorana_partial"
   ],
   "note": "all arguments without target operator or target fidelity, given that the norms reported are real and not negative: C64_partial; they are for one operator in com_ops (C64_pauli_partial, C64_majorana_partial), for several (C64_several_pauli_partial, C64_several_majorana_partial) and for transformations that permute the strings up to signs (C64_symmetric_pauli_partial, C64_symmetric_majorana_partial)"
  },
  {
   "property": "C65",
   "status": "partial",
   "theorems": [
    "Qosy.C65_one_dimension_partial",
    "Qosy.C65_refuted"
   ],
   "note": "false in two dimensions (C65_refuted: only the expansion of the last direction is kept); proved in one dimension for one expansion"
  },
  {
   "property": "C66",
   "status": "partial",
   "theorems": [
    "Qosy.C66_sparsify",
    "Qosy.C66_span",
    "Qosy.C66_too_many",
    "Qosy.C66_short",
    "Qosy.C66_refuted"
   ],
   "note": "false for linearly dependent vectors (C66_refuted: the span grows) and for more vectors than dimensions (C66_too_many: IndexError); proved for independent vectors, with an exact characterisation (C66_span)"
  },
  {
   "property": "C67",
   "status": "partial",
   "theorems": [
    "Qosy.C67_pauli",
    "Qosy.C67_majorana",
    "Qosy.C67_refuted",
    "Qosy.C67_orthogonal_pauli_partial",
    "Qosy.C67_orthogonal_majorana_partial"
   ],
   "note": "false with orthogonalization=True: C67_refuted, C67_orthogonal_pauli_partial and C67_orthogonal_majorana_partial prove what is left; proved without, for separated spaces (intersection uses a fixed tolerance)"
  },
  {
   "property": "C68",
   "status": "partial",
   "theorems": [
    "Qosy.C68_pauli",
    "Qosy.C68_majorana",
    "Qosy.C68_empty",
    "Qosy.C68_mode",
    "Qosy.C68_refuted"
   ],
   "note": "false for the default options and a Transformation as a later symmetry: C68_refuted; proved for all other cases; C68_empty: IndexError for an empty basis"
  },
  {
   "property": "C69",
   "status": "partial",
   "theorems": [
    "Qosy.C69_cumulative",
    "Qosy.C69_refuted"
   ],
   "note": "false in the noncumulative mode: C69_refuted; in the cumulative mode the second call appends the results of a new generator"
  },
  {
   "property": "C70",
   "status": "partial",
   "theorems": [
    "Qosy.C70_swap_partial",
    "Qosy.C70_involution_partial",
    "Qosy.C70_symmetric_partial",
    "Qosy.C70_unrelated_partial",
    "Qosy.C70_refuted",
    "Qosy.C70_nested_refuted",
    "Qosy.C70_empty_refuted"
   ],
   "note": "false for nested names and names in parentheses: C70_refuted, C70_nested_refuted; proved for names that do not overlap and texts without parentheses"
  },
  {
   "property": "C71",
   "status": "partial",
   "theorems": [
    "Qosy.C71_replace",
    "Qosy.C71_order",
    "Qosy.C71_characters",
    "Qosy.C71_swap",
    "Qosy.C71_refuted",
    "Qosy.C71_empty_key"
   ],
   "note": "an empty dictionary raises KeyError: C71_refuted; proved for all others"
  },
  {
   "property": "C72",
   "status": "partial",
   "theorems": [
    "Qosy.C72_argsort",
    "Qosy.C72_comparison_refuted",
    "Qosy.C72_comparison_partial"
   ],
   "note": "with comp the indices are compared instead of the elements: C72_comparison_refuted; proved without comp"
  },
  {
   "property": "C73",
   "status": "partial",
   "theorems": [
    "Qosy.C73_space_group",
    "Qosy.C73_translation",
    "Qosy.C73_rotation",
    "Qosy.C73_missing",
    "Qosy.C73_refuted"
   ],
   "note": "maps that are not one-to-one on the orbitals are accepted: C73_refuted; proved for all symmetries of the crystal, and C73_missing says exactly when ValueError is raised"
  },
  {
   "property": "C74",
   "status": "partial",
   "theorems": [
    "Qosy.C74_spin_flip",
    "Qosy.C74_involution",
    "Qosy.C74_missing",
    "Qosy.C74_refuted"
   ],
   "note": "false for names with parentheses: C74_refuted; proved for all others whose spins do not overlap"
  },
  {
   "property": "C75",
   "status": "proved",
   "theorems": [
    "Qosy.C75_spin_parity",
    "Qosy.C75_involution"
   ],
   "note": ""
  },
  {
   "property": "C76",
   "status": "proved",
   "theorems": [
    "Qosy.C76_time_reversal",
    "Qosy.C76_square",
    "Qosy.C76_exists",
    "Qosy.C76_errors"
   ],
   "note": "for names of spins that do not overlap, in names without parentheses"
  },
  {
   "property": "C77",
   "status": "partial",
   "theorems": [
    "Qosy.C77_pauli",
    "Qosy.C77_majorana",
    "Qosy.C77_sound_pauli",
    "Qosy.C77_sound_majorana",
    "Qosy.C77_exact_pauli_partial",
    "Qosy.C77_exact_majorana_partial",
    "Qosy.C77_exact_zero",
    "Qosy.C77_exact_zero_majorana",
    "Qosy.C77_independent_pauli",
    "Qosy.C77_independent_majorana",
    "Qosy.C77_dimension",
    "Qosy.C77_errors",
    "Qosy.C77_refuted"
   ],
   "note": "false with the default tolerance: C77_refuted (a generator with a coefficient of 1e-7 hides a commutator); proved termination, approximate closure, soundness, independence, exactness when nothing is dropped and the tolerance separates, exactness for tolerance 0, dimension, errors"
  },
  {
   "property": "C78",
   "status": "partial",
   "theorems": [
    "Qosy.C78_relabel",
    "Qosy.C78_coordinates",
    "Qosy.C78_operator",
    "Qosy.C78_string",
    "Qosy.C78_empty",
    "Qosy.C78_refuted"
   ],
   "note": "false for labels that are not in the lattice: C78_refuted, and a lattice without orbitals gives KeyError: C78_empty; proved for all texts, strings and operators that mention orbitals of the lattice"
  },
  {
   "property": "C79",
   "status": "proved",
   "theorems": [
    "Qosy.C79_text",
    "Qosy.C79_operators",
    "Qosy.C79_vectors",
    "Qosy.C79_converted",
    "Qosy.C79_nothing"
   ],
   "note": "for operators with some term above the tolerance; otherwise the text is empty, except that the maximum norm raises ValueError: C79_nothing; keywords are not empty"
  },
  {
   "property": "C80",
   "status": "proved",
   "theorems": [
    "Qosy.C80_value",
    "Qosy.C80_bounds",
    "Qosy.C80_product",
    "Qosy.C80_complement",
    "Qosy.C80_errors",
    "Qosy.C80_scaling",
    "Qosy.C80_order",
    "Qosy.C80_smaller_side"
   ],
   "note": "for integer orders; the logarithm takes the value -inf at 0"
  },
  {
   "property": "C81",
   "status": "partial",
   "theorems": [
    "Qosy.C81_energies",
    "Qosy.C81_variational",
    "Qosy.C81_large",
    "Qosy.C81_complete",
    "Qosy.C81_general",
    "Qosy.C81_refuted",
    "Qosy.C81_refuted_nonhermitian"
   ],
   "note": "false for Fermion operators, whose mean energy is subtracted: C81_refuted, and for operators that are not Hermitian in the default mode: C81_refuted_nonhermitian; proved for Hermitian Pauli and Majorana operators, up to the shift tr H / 2**n for Fermion operators, and for all operators in the other modes"
  },
  {
   "property": "C82",
   "status": "partial",
   "theorems": [
    "Qosy.C82_tight_binding",
    "Qosy.C82_bdg",
    "Qosy.C82_bdg_majorana",
    "Qosy.C82_large",
    "Qosy.C82_refuted"
   ],
   "note": "false for BdG operators with zero modes, which are not paired: C82_refuted; proved for tight binding without exception, and for BdG operators except that two zero modes need not anticommute (they can be replaced by fermions); the sum of energy times occupation number holds also with zero modes; with num_vecs and sigma see C95"
  },
  {
   "property": "C83",
   "status": "partial",
   "theorems": [
    "Qosy.C83_refuted_nothing_found",
    "Qosy.C83_refuted_pauli",
    "Qosy.C83_refuted_majorana",
    "Qosy.C83_refuted_simple",
    "Qosy.C83_refuted",
    "Qosy.C83_sites"
   ],
   "note": "false for all inputs: C83_refuted and C83_refuted_nothing_found; proved is exactly which exception is raised and when the initial operator comes back unchanged"
  },
  {
   "property": "C84",
   "status": "partial",
   "theorems": [
    "Qosy.C84_pauli_partial",
    "Qosy.C84_majorana_partial",
    "Qosy.C84_calls",
    "Qosy.C84_refuted",
    "Qosy.C84_refuted_list"
   ],
   "note": "false as to the orthogonality: C84_refuted, and for lists of basis sizes: C84_refuted_list; proved: number of operators, normalisation and norms, no exception for ManySafe arguments (default arguments included), and for all arguments which call of selected_ci_greedy gives each operator (C84_calls); exact arithmetic"
  },
  {
   "property": "C85",
   "status": "partial",
   "theorems": [
    "Qosy.C85_steps",
    "Qosy.C85_pauli_partial",
    "Qosy.C85_majorana_partial",
    "Qosy.C85_total_partial",
    "Qosy.C85_refuted",
    "Qosy.C85_identity",
    "Qosy.C85_refuted_exceptions"
   ],
   "note": "false with orth_ops: C85_refuted, and exceptions for ordinary arguments: C85_refuted_exceptions; proved in full for all results without orth_ops, and that there is a result for Many2Safe arguments; exact arithmetic"
  },
  {
   "property": "C86",
   "status": "partial",
   "theorems": [
    "Qosy.C86_pauli_partial",
    "Qosy.C86_majorana_partial",
    "Qosy.C86_open_pauli_partial",
    "Qosy.C86_open_majorana_partial",
    "Qosy.C86_exceptions_pauli",
    "Qosy.C86_exceptions_majorana",
    "Qosy.C86_refuted",
    "Qosy.C86_refuted_missing"
   ],
   "note": "false for bases that are not closed under commutation with O: C86_refuted (returned operators that are no ladder operators) and C86_refuted_missing (missed ladder operators); proved in full for closed bases, for other bases what the operators satisfy, and which exceptions there are; exact arithmetic, contracts of nla.svd, nla.eigh, sparsify"
  },
  {
   "property": "C87",
   "status": "partial",
   "theorems": [
    "Qosy.C87_pauli_partial",
    "Qosy.C87_majorana_partial",
    "Qosy.C87_missing_pauli",
    "Qosy.C87_missing_majorana",
    "Qosy.C87_vectors_pauli_partial",
    "Qosy.C87_vectors_majorana_partial",
    "Qosy.C87_exceptions_pauli",
    "Qosy.C87_exceptions_majorana",
    "Qosy.C87_refuted",
    "Qosy.C87_refuted_null"
   ],
   "note": "false if R has no inverse over the basis: C87_refuted (an operator is returned all the same), and for the completeness of nulls if fewer strings are reached than the basis has: C87_refuted_null; proved: the operator is right if there is one, None is right, nulls commute up to the tolerance and are complete otherwise, and which exceptions there are; exact arithmetic, contracts of nla.svd, nla.pinv, sparsify"
  },
  {
   "property": "C88",
   "status": "proved",
   "theorems": [
    "Qosy.C88_pauli",
    "Qosy.C88_majorana",
    "Qosy.C88_step_pauli",
    "Qosy.C88_step_majorana",
    "Qosy.C88_many_pauli",
    "Qosy.C88_many_majorana"
   ],
   "note": "for both kinds of strings, every reachable step of selected_ci_greedy and the first operator of its result, and the first step of selected_ci_greedy_many_ops2; terms with coefficient zero may be among those added if there are not enough others; exact arithmetic, contract of the numerical routines"
  },
  {
   "property": "C89",
   "status": "proved",
   "theorems": [
    "Qosy.C89_closure",
    "Qosy.C89_pauli",
    "Qosy.C89_majorana",
    "Qosy.C89_symmetric",
    "Qosy.C89_total",
    "Qosy.C89_total_majorana",
    "Qosy.C89_permutation",
    "Qosy.C89_timeReversal"
   ],
   "note": "for both kinds of strings; exact arithmetic, contract of the numerical routines; without exceptions on finitely many labels: C89_total, C89_total_majorana"
  },
  {
   "property": "C90",
   "status": "proved",
   "theorems": [
    "Qosy.C90_pauli",
    "Qosy.C90_majorana",
    "Qosy.C90_exact_pauli",
    "Qosy.C90_exact_majorana"
   ],
   "note": "for both kinds of strings; exact arithmetic, contract of eigsh (ExactEigsh)"
  },
  {
   "property": "C91",
   "status": "partial",
   "theorems": [
    "Qosy.C91_singular",
    "Qosy.C91_partial",
    "Qosy.C91_refuted"
   ],
   "note": "false: C91_refuted, and C91_singular proves that the call raises an exception whenever an operator with the symmetry exists (the shift is an eigenvalue); proved when there is none (C91_partial)"
  },
  {
   "property": "C92",
   "status": "partial",
   "theorems": [
    "Qosy.C92_none",
    "Qosy.C92_pauli_partial",
    "Qosy.C92_majorana_partial",
    "Qosy.C92_second_fails",
    "Qosy.C92_example",
    "Qosy.C92_refuted"
   ],
   "note": "false: C92_refuted, and C92_second_fails proves that num_vecs on the second symmetry always raises an exception; proved if only the first symmetry, an Operator, has num_vecs (C92_pauli_partial, C92_majorana_partial), and equality without num_vecs (C92_none)"
  },
  {
   "property": "C93",
   "status": "proved",
   "theorems": [
    "Qosy.C93_none",
    "Qosy.C93_pauli",
    "Qosy.C93_majorana",
    "Qosy.C93_first",
    "Qosy.C93_example"
   ],
   "note": "for Pauli and Majorana strings, exact arithmetic and contracts of the numerical routines; Transformations that permute strings up to signs"
  },
  {
   "property": "C94",
   "status": "partial",
   "theorems": [
    "Qosy.C94_refuted",
    "Qosy.C94_partial"
   ],
   "note": "false: C94_refuted (to_operator always raises TypeError); proved for its body with num_orbitals passed on to to_vector (C94_partial)"
  },
  {
   "property": "C95",
   "status": "partial",
   "theorems": [
    "Qosy.C95_zero",
    "Qosy.C95_zero_majorana",
    "Qosy.C95_partial",
    "Qosy.C95_refuted"
   ],
   "note": "false for sigma > 0: C95_refuted; proved for sigma=0 (C95_zero, C95_zero_majorana); for any sigma each operator lowers or raises the energy by the energy returned (C95_partial)"
  },
  {
   "property": "C96",
   "status": "proved",
   "theorems": [
    "Qosy.C96_strings",
    "Qosy.C96_bases",
    "Qosy.C96_operators",
    "Qosy.C96_equivalence",
    "Qosy.C96_denotes"
   ],
   "note": ""
  },
  {
   "property": "C97",
   "status": "proved",
   "theorems": [
    "Qosy.C97_left_inverse",
    "Qosy.C97_inverse",
    "Qosy.C97_size",
    "Qosy.C97_empty"
   ],
   "note": "labels 0..n-1 for any n; an empty source basis raises TypeError (C97_empty)"
  },
  {
   "property": "C98",
   "status": "proved",
   "theorems": [
    "Qosy.C98_pauli",
    "Qosy.C98_majorana"
   ],
   "note": "labels must be non-negative (C29_negative_labels)"
  },
  {
   "property": "C99",
   "status": "proved",
   "theorems": [
    "Qosy.C99_associative",
    "Qosy.C99_exchange",
    "Qosy.C99_jacobi",
    "Qosy.C99_derivation",
    "Qosy.C99_operators_associative",
    "Qosy.C99_split",
    "Qosy.C99_operators_exchange"
   ],
   "note": ""
  },
  {
   "property": "C100",
   "status": "proved",
   "theorems": [
    "Qosy.C100_tight_binding",
    "Qosy.C100_bdg",
    "Qosy.C100_bdg_majorana"
   ],
   "note": "tight binding, BdG of Fermion operators, BdG of Majorana operators; zero modes included"
  },
  {
   "property": "C101",
   "status": "proved",
   "theorems": [
    "Qosy.C101_num_vecs",
    "Qosy.C101_permutation_pauli",
    "Qosy.C101_permutation_majorana",
    "Qosy.C101_particle_hole",
    "Qosy.C101_time_reversal",
    "Qosy.C101_representation",
    "Qosy.C101_more_sites",
    "Qosy.C101_convert",
    "Qosy.C101_convert_pauli"
   ],
   "note": "number of states and eigensolver, label permutations, time reversal, particle-hole transformation, conversion, additional sites, representations"
  },
  {
   "property": "C102",
   "status": "proved",
   "theorems": [
    "Qosy.C102_commutant",
    "Qosy.C102_bracket",
    "Qosy.C102_image_pauli",
    "Qosy.C102_image_majorana",
    "Qosy.C102_commuting_operators"
   ],
   "note": "Pauli and Majorana strings; products of label permutations, time reversal and particle-hole"
  },
  {
   "property": "C103",
   "status": "proved",
   "theorems": [
    "Qosy.C103_commutator",
    "Qosy.C103_linear",
    "Qosy.C103_hermitian",
    "Qosy.C103_structure_constants"
   ],
   "note": "Pauli and Majorana strings"
  },
  {
   "property": "C104",
   "status": "partial",
   "theorems": [
    "Qosy.C104_pauli_partial",
    "Qosy.C104_majorana_partial",
    "Qosy.C104_exceptions_pauli",
    "Qosy.C104_exceptions_majorana",
    "Qosy.C104_refuted",
    "Qosy.C104_refuted_values"
   ],
   "note": "false for bases that are not closed under commutators with the operator, where operators with different values are combined (C104_refuted), and for nla.eig returning eigenvectors of a degenerate eigenvalue that are not orthogonal (C104_refuted_values); proved for closed bases and orthogonal eigenvectors, with the exceptions"
  },
  {
   "property": "C105",
   "status": "proved",
   "theorems": [
    "Qosy.C105_covariant",
    "Qosy.C105_entropy",
    "Qosy.C105_order",
    "Qosy.C105_entropy_order",
    "Qosy.C105_tomography",
    "Qosy.C105_eigenstates",
    "Qosy.C105_matrix_elements"
   ],
   "note": ""
  },
  {
   "property": "C106",
   "status": "proved",
   "theorems": [
    "Qosy.C106_change",
    "Qosy.C106_strings",
    "Qosy.C106_structure_constants",
    "Qosy.C106_symmetry_matrix",
    "Qosy.C106_commuting_operators",
    "Qosy.C106_count",
    "Qosy.C106_invariant_operators"
   ],
   "note": "Pauli and Majorana strings; commuting_operators and invariant_operators for tolerances below a positive bound; invariant_operators for orthonormal elements and Transformations that permute strings up to signs"
  },
  {
   "property": "C107",
   "status": "proved",
   "theorems": [
    "Qosy.C107_algebra",
    "Qosy.C107_unit",
    "Qosy.C107_conjugate"
   ],
   "note": "Pauli and Majorana strings, tolerances below a positive bound, no coefficient of the product below the tolerance of the product"
  },
  {
   "property": "C108",
   "status": "proved",
   "theorems": [
    "Qosy.C108_product",
    "Qosy.C108_commute",
    "Qosy.C108_power",
    "Qosy.C108_identity",
    "Qosy.C108_translations",
    "Qosy.C108_ring",
    "Qosy.C108_rotation",
    "Qosy.C108_matrix"
   ],
   "note": "coordinates in an ordered field; symmetry_matrix with its default tolerance"
  },
  {
   "property": "C109",
   "status": "proved",
   "theorems": [
    "Qosy.C109_commuting_pauli",
    "Qosy.C109_commuting_majorana",
    "Qosy.C109_matrices",
    "Qosy.C109_invariant",
    "Qosy.C109_add_symmetry",
    "Qosy.C109_generate",
    "Qosy.C109_diagonalize",
    "Qosy.C109_renyi",
    "Qosy.C109_cluster"
   ],
   "note": "generate() for symmetries that are Operators (Transformations: C68), tolerances below a positive bound; diagonalize of Pauli and Majorana operators"
  },
  {
   "property": "C110",
   "status": "proved",
   "theorems": [
    "Qosy.C110_ladder",
    "Qosy.C110_commuting",
    "Qosy.C110_permutation"
   ],
   "note": "Pauli strings; ladder operators over closed bases (sparsification off); tolerances of commuting_operators below a positive bound"
  },
  {
   "property": "C111",
   "status": "proved",
   "theorems": [
    "Qosy.C111_kramers",
    "Qosy.C111_anticommuting",
    "Qosy.C111_time_reversal",
    "Qosy.C111_particle_hole",
    "Qosy.C111_permutation"
   ],
   "note": "exact arithmetic; Kramers degeneracy for Pauli operators"
  },
  {
   "property": "C112",
   "status": "proved",
   "theorems": [
    "Qosy.C112_pauli",
    "Qosy.C112_majorana",
    "Qosy.C112_best",
    "Qosy.C112_best_majorana"
   ],
   "note": "exact arithmetic; tolerances of commuting_operators below a positive bound"
  },
  {
   "property": "C113",
   "status": "proved",
   "theorems": [
    "Qosy.C113_scale",
    "Qosy.C113_neg",
    "Qosy.C113_sum",
    "Qosy.C113_identity",
    "Qosy.C113_coefficients"
   ],
   "note": "exact arithmetic"
  },
  {
   "property": "C114",
   "status": "proved",
   "theorems": [
    "Qosy.C114_commuting_operators",
    "Qosy.C114_lie_algebra",
    "Qosy.C114_norm",
    "Qosy.C114_round_trip"
   ],
   "note": "exact arithmetic; sites 0..n-1 for any n; non-empty Basis or list"
  },
  {
   "property": "C115",
   "status": "proved",
   "theorems": [
    "Qosy.C115_sort_sign",
    "Qosy.C115_remove_duplicates",
    "Qosy.C115_remove_zeros",
    "Qosy.C115_gram_schmidt",
    "Qosy.C115_convert_same_type",
    "Qosy.C115_lie_algebra",
    "Qosy.C115_lie_algebra_mono",
    "Qosy.C115_lie_algebra_order"
   ],
   "note": "exact arithmetic; gram_schmidt for at least one row"
  },
  {
   "property": "C116",
   "status": "proved",
   "theorems": [
    "Qosy.C116_commuting_operators",
    "Qosy.C116_lie_algebra",
    "Qosy.C116_norm"
   ],
   "note": "exact arithmetic; canonical strings on the sites 0..n-1; non-empty Basis or list"
  },
  {
   "property": "C117",
   "status": "proved",
   "theorems": [
    "Qosy.C117_pauli",
    "Qosy.C117_majorana",
    "Qosy.C117_count_pauli",
    "Qosy.C117_count_majorana",
    "Qosy.C117_invariant",
    "Qosy.C117_involution",
    "Qosy.C117_time_reversal",
    "Qosy.C117_energies"
   ],
   "note": "all arithmetic other than the eigensolver is exact; errors of the eigensolver are bounded by the measured size of its residual"
  },
  {
   "property": "C118",
   "status": "proved",
   "theorems": [
    "Qosy.C118_commuting_operators",
    "Qosy.C118_invariant_operators",
    "Qosy.C118_remove_zeros",
    "Qosy.C118_truncate",
    "Qosy.C118_cluster_basis",
    "Qosy.C118_distance_basis",
    "Qosy.C118_greedy_steps"
   ],
   "note": "no assumption about the eigensolver or the other numerical routines except that they are functions of their arguments; truncation assumes that argsort returns a sorting permutation; the last part compares two searches that both return"
  },
  {
   "property": "C119",
   "status": "proved",
   "theorems": [
    "Qosy.C119_product",
    "Qosy.C119_power"
   ],
   "note": "exact arithmetic, exact eigensolver (ExactEigh) and pseudoinverse (IsPinv); the built-in Transformations satisfy the hypothesis SignRule, as do products of them"
  },
  {
   "property": "C120",
   "status": "proved",
   "theorems": [
    "Qosy.C120_sum",
    "Qosy.C120_scale",
    "Qosy.C120_product"
   ],
   "note": "exact arithmetic and exact eigensolver (ExactEigh)"
  },
  {
   "property": "C121",
   "status": "proved",
   "theorems": [
    "Qosy.C121_strings",
    "Qosy.C121_operators",
    "Qosy.C121_search"
   ],
   "note": "search: exact arithmetic and exact eigensolver (ExactEigh)"
  },
  {
   "property": "C122",
   "status": "proved",
   "theorems": [
    "Qosy.C122_strings",
    "Qosy.C122_product",
    "Qosy.C122_lie_algebra",
    "Qosy.C122_lie_pair",
    "Qosy.C122_search",
    "Qosy.C122_found"
   ],
   "note": "search: exact arithmetic and exact eigensolver (ExactEigh)"
  },
  {
   "property": "C123",
   "status": "proved",
   "theorems": [
    "Qosy.C123_energies"
   ],
   "note": "exact arithmetic and exact eigensolver"
  },
  {
   "property": "C124",
   "status": "proved",
   "theorems": [
    "Qosy.C124_energies"
   ],
   "note": "exact arithmetic and exact eigensolver; which signs occur, and how often, is not described"
  }
 ]
}