{
 "claims": [
  {
   "property": "C01",
   "status": "partial",
   "theorems": [
    "Dsrg.C01_space_relation_table",
    "Dsrg.C01_find_space_label_intersection",
    "Dsrg.C01_find_space_label_elementary_partial",
    "Dsrg.C01_find_space_label_empty",
    "Dsrg.C01_violation_core_virtual",
    "Dsrg.C01_violation_returns_none"
   ],
   "note": "find_space_label is right on intersections of label sets (its only use in the package). On arbitrary sets it is wrong: {c,v} gives p, {a,A} gives None (violations proved)."
  },
  {
   "property": "C02",
   "status": "partial",
   "theorems": [
    "Dsrg.C02_scaling",
    "Dsrg.C02_order",
    "Dsrg.C02_lt_lexicographic",
    "Dsrg.C02_eq_consistent_partial",
    "Dsrg.C02_violation_eq_scaling",
    "Dsrg.C02_violation_le_antisymm"
   ],
   "note": "Order theorems hold; == compares the raw dictionary, so it disagrees with the order on counters that have equal scaling (violations proved)."
  },
  {
   "property": "C03",
   "status": "proved",
   "theorems": [
    "Dsrg.C03_parse_ok",
    "Dsrg.C03_parse_error",
    "Dsrg.C03_roundtrip"
   ],
   "note": "ASCII strings; python's isdigit also accepts other unicode digits."
  },
  {
   "property": "C04",
   "status": "proved",
   "theorems": [
    "Dsrg.C04_lt_spec",
    "Dsrg.C04_total_order",
    "Dsrg.C04_eq_spec"
   ],
   "note": ""
  },
  {
   "property": "C05",
   "status": "partial",
   "theorems": [
    "Dsrg.C05_eq_hash_partial",
    "Dsrg.C05_repeat_test_partial",
    "Dsrg.C05_violation_leading_zero"
   ],
   "note": "Equality and hash agree for canonical names; g01 and g1 are equal with different hashes (violation proved)."
  },
  {
   "property": "C06",
   "status": "proved",
   "theorems": [
    "Dsrg.C06_flips",
    "Dsrg.C06_labels",
    "Dsrg.C06_is_beta"
   ],
   "note": ""
  },
  {
   "property": "C07",
   "status": "proved",
   "theorems": [
    "Dsrg.C07_make",
    "Dsrg.C07_add",
    "Dsrg.C07_names"
   ],
   "note": ""
  },
  {
   "property": "C08",
   "status": "proved",
   "theorems": [
    "Dsrg.C08_sort_and_count"
   ],
   "note": ""
  },
  {
   "property": "C09",
   "status": "proved",
   "theorems": [
    "Dsrg.C09_canonicalize",
    "Dsrg.C09_antisymmetric_value",
    "Dsrg.C09_canonical_unique",
    "Dsrg.C09_idempotent",
    "Dsrg.C09_swap_flips_sign",
    "Dsrg.C09_not_antisymmetric",
    "Dsrg.C09_classes",
    "Dsrg.C09_tensor",
    "Dsrg.C09_operator"
   ],
   "note": ""
  },
  {
   "property": "C10",
   "status": "proved",
   "theorems": [
    "Dsrg.C10_error",
    "Dsrg.C10_relative_sign"
   ],
   "note": ""
  },
  {
   "property": "C11",
   "status": "proved",
   "theorems": [
    "Dsrg.C11_ambit_permute_format",
    "Dsrg.C11_not_antisymmetric"
   ],
   "note": ""
  },
  {
   "property": "C12",
   "status": "proved",
   "theorems": [
    "Dsrg.C12_multinomial",
    "Dsrg.C12_equals_number_emitted"
   ],
   "note": ""
  },
  {
   "property": "C13",
   "status": "proved",
   "theorems": [
    "Dsrg.C13_all_spin_cases",
    "Dsrg.C13_fixed_beta",
    "Dsrg.C13_errors"
   ],
   "note": ""
  },
  {
   "property": "C14",
   "status": "proved",
   "theorems": [
    "Dsrg.C14_conserving",
    "Dsrg.C14_all",
    "Dsrg.C14_errors"
   ],
   "note": "Both modes, with exact counts."
  },
  {
   "property": "C15",
   "status": "proved",
   "theorems": [
    "Dsrg.C15_indices",
    "Dsrg.C15_pairs",
    "Dsrg.C15_tensors",
    "Dsrg.C15_sort_unique",
    "Dsrg.C15_default_order"
   ],
   "note": "Indices, pairs and tensors; tensor equality ignores the tensor class, as the code does."
  },
  {
   "property": "C16",
   "status": "proved",
   "theorems": [
    "Dsrg.C16_operator",
    "Dsrg.C16_term"
   ],
   "note": ""
  },
  {
   "property": "C17",
   "status": "proved",
   "theorems": [
    "Dsrg.C17_downgrade"
   ],
   "note": ""
  },
  {
   "property": "C18",
   "status": "proved",
   "theorems": [
    "Dsrg.C18_constructors",
    "Dsrg.C18_n_body",
    "Dsrg.C18_excitation",
    "Dsrg.C18_all_active",
    "Dsrg.C18_strict_labels"
   ],
   "note": ""
  },
  {
   "property": "C19",
   "status": "proved",
   "theorems": [
    "Dsrg.C19_expand_hole_densities"
   ],
   "note": ""
  },
  {
   "property": "C20",
   "status": "proved",
   "theorems": [
    "Dsrg.C20_integer_partition",
    "Dsrg.C20_small_cases"
   ],
   "note": "For n >= 2; the behaviour for 0 and 1 is proved separately."
  },
  {
   "property": "C21",
   "status": "proved",
   "theorems": [
    "Dsrg.C21_integer_separation"
   ],
   "note": ""
  },
  {
   "property": "C22",
   "status": "proved",
   "theorems": [
    "Dsrg.C22_check_max_cu",
    "Dsrg.C22_nonpositive_request"
   ],
   "note": "Includes the behaviour for non-positive requests."
  },
  {
   "property": "C23",
   "status": "proved",
   "theorems": [
    "Dsrg.C23_pairwise"
   ],
   "note": ""
  },
  {
   "property": "C24",
   "status": "proved",
   "theorems": [
    "Dsrg.C24_half_cumulant"
   ],
   "note": ""
  },
  {
   "property": "C25",
   "status": "proved",
   "theorems": [
    "Dsrg.C25_cumulants",
    "Dsrg.C25_categorized"
   ],
   "note": ""
  },
  {
   "property": "C26",
   "status": "proved",
   "theorems": [
    "Dsrg.C26_codes"
   ],
   "note": ""
  },
  {
   "property": "C27",
   "status": "proved",
   "theorems": [
    "Dsrg.C27_compatible_list",
    "Dsrg.C27_compatible_categorized"
   ],
   "note": ""
  },
  {
   "property": "C28",
   "status": "proved",
   "theorems": [
    "Dsrg.C28_general_backtrack",
    "Dsrg.C28_general_backtrack_terminates"
   ],
   "note": ""
  },
  {
   "property": "C29",
   "status": "partial",
   "theorems": [
    "Dsrg.C29_category_backtrack",
    "Dsrg.C29_terminates",
    "Dsrg.C29_violation_default_compatible"
   ],
   "note": "Proved for the call with compatible (the only one the package makes); without it the call raises TypeError (violation proved)."
  },
  {
   "property": "C30",
   "status": "proved",
   "theorems": [
    "Dsrg.C30_sound",
    "Dsrg.C30_fuel"
   ],
   "note": "For any list of distinct, valid categories; includes independence of the model's fuel."
  },
  {
   "property": "C31",
   "status": "partial",
   "theorems": [
    "Dsrg.C31_complete_three_operators_partial",
    "Dsrg.C31_complete_common_operator_partial",
    "Dsrg.C31_sequence",
    "Dsrg.C31_violation_four_operators"
   ],
   "note": "True for up to three operators and for any number of operators with a common operator in all categories; a four-operator counterexample is proved."
  },
  {
   "property": "C32",
   "status": "proved",
   "theorems": [
    "Dsrg.C32_connected_part",
    "Dsrg.C32_two_operators"
   ],
   "note": ""
  },
  {
   "property": "C33",
   "status": "proved",
   "theorems": [
    "Dsrg.C33_sign"
   ],
   "note": ""
  },
  {
   "property": "C34",
   "status": "proved",
   "theorems": [
    "Dsrg.C34_general",
    "Dsrg.C34_connected",
    "Dsrg.C34_general_total",
    "Dsrg.C34_connected_total"
   ],
   "note": ""
  },
  {
   "property": "C35",
   "status": "proved",
   "theorems": [
    "Dsrg.C35_commutator"
   ],
   "note": ""
  },
  {
   "property": "C36",
   "status": "partial",
   "theorems": [
    "Dsrg.C36_depth",
    "Dsrg.C36_small_partial",
    "Dsrg.C36_violation"
   ],
   "note": "Depth n+1 proved for every run; limit exceeded for every n >= 1000 (violation), sufficient below."
  },
  {
   "property": "C37",
   "status": "proved",
   "theorems": [
    "Dsrg.C37_accepts",
    "Dsrg.C37_rejects",
    "Dsrg.C37_content"
   ],
   "note": ""
  },
  {
   "property": "C38",
   "status": "proved",
   "theorems": [
    "Dsrg.C38_hamiltonian",
    "Dsrg.C38_cluster"
   ],
   "note": ""
  },
  {
   "property": "C39",
   "status": "proved",
   "theorems": [
    "Dsrg.C39_fresh"
   ],
   "note": ""
  },
  {
   "property": "C40",
   "status": "partial",
   "theorems": [
    "Dsrg.C40_library",
    "Dsrg.C40_library_simple",
    "Dsrg.C40_simplify_partial",
    "Dsrg.C40_violation_chained_deltas",
    "Dsrg.C40_violation_delta_density",
    "Dsrg.C40_violation_delta_diagonal",
    "Dsrg.C40_violation_core_cumulant",
    "Dsrg.C40_example",
    "Dsrg.C40_canonicalize_simple_partial"
   ],
   "note": "Proved when deltas share no label with another delta or density and many-body densities can be active (the shape contractions produce); without that the value can change (four violations proved). For every term that can be built with the library (LibraryTerm) no condition is left: simplify and canonicalize_simple return and keep the value (C40_library, C40_library_simple)."
  },
  {
   "property": "C41",
   "status": "proved",
   "theorems": [
    "Dsrg.C41_minimal"
   ],
   "note": ""
  },
  {
   "property": "C42",
   "status": "proved",
   "theorems": [
    "Dsrg.C42_canonicalize_simple"
   ],
   "note": "Coefficients in (0, 1e-15), which is_void takes for zero, are excluded."
  },
  {
   "property": "C43",
   "status": "partial",
   "theorems": [
    "Dsrg.C43_library",
    "Dsrg.C43_canonicalize_sympy_partial",
    "Dsrg.C43_value_partial",
    "Dsrg.C43_typeError_only_for_zero_partial",
    "Dsrg.C43_violation_zero",
    "Dsrg.C43_violation_unbalanced_operator",
    "Dsrg.C43_example"
   ],
   "note": "Proved for operators with as many creation as annihilation labels, SymPy's canonicalize being any function with its documented contract. Violations: vanishing terms raise TypeError; for other operators the symmetries mix creation and annihilation labels. For every term that can be built with the library (LibraryTerm) no condition is left: canonicalize and canonicalize_sympy return and keep the value (C43_library)."
  },
  {
   "property": "C44",
   "status": "partial",
   "theorems": [
    "Dsrg.C44_make_ddca_partial",
    "Dsrg.C44_expand_partial",
    "Dsrg.C44_expand_single_ref_partial",
    "Dsrg.C44_blocks_partial",
    "Dsrg.C44_total_partial",
    "Dsrg.C44_example",
    "Dsrg.C44_violation_diagonal",
    "Dsrg.C44_library"
   ],
   "note": "Proved for operators without a diagonal label (one that is both created and annihilated), including totality; with a diagonal label the blocks are counted several times (violation proved). For every term that can be built with the library (LibraryTerm) no condition is left: expand_composite_indices returns and the blocks add up (C44_library)."
  },
  {
   "property": "C45",
   "status": "proved",
   "theorems": [
    "Dsrg.C45_partition",
    "Dsrg.C45_example"
   ],
   "note": "For constructed terms without diagonal labels; the partition is proved to split the open labels by the factor that carries them."
  },
  {
   "property": "C46",
   "status": "proved",
   "theorems": [
    "Dsrg.C46_ambit",
    "Dsrg.C46_one_spin",
    "Dsrg.C46_plain",
    "Dsrg.C46_example",
    "Dsrg.C46_no_temp"
   ],
   "note": "Both label kinds; the normalisation is proved exactly. Without temp (init_temp and declared_temp off) permutations are dropped (counterexample proved beside it)."
  },
  {
   "property": "C47",
   "status": "proved",
   "theorems": [
    "Dsrg.C47_number",
    "Dsrg.C47_paths",
    "Dsrg.C47_complete",
    "Dsrg.C47_open",
    "Dsrg.C47_optimal",
    "Dsrg.C47_example",
    "Dsrg.C47_small"
   ],
   "note": "Number of paths, soundness and completeness over all binary contraction trees, and optimality of both reported costs."
  },
  {
   "property": "C48",
   "status": "proved",
   "theorems": [
    "Dsrg.C48_hash"
   ],
   "note": ""
  },
  {
   "property": "C49",
   "status": "proved",
   "theorems": [
    "Dsrg.C49_combine",
    "Dsrg.C49_value"
   ],
   "note": ""
  },
  {
   "property": "C50",
   "status": "proved",
   "theorems": [
    "Dsrg.C50_order",
    "Dsrg.C50_contract_terms",
    "Dsrg.C50_single_commutator"
   ],
   "note": ""
  },
  {
   "property": "C51",
   "status": "proved",
   "theorems": [
    "Dsrg.C51_batches",
    "Dsrg.C51_condition_needed"
   ],
   "note": ""
  },
  {
   "property": "C52",
   "status": "partial",
   "theorems": [
    "Dsrg.C52_idempotent_partial",
    "Dsrg.C52_violation_second_call"
   ],
   "note": "Idempotence proved; the inputs are overwritten, so a second call on the same list differs (violation proved)."
  },
  {
   "property": "C53",
   "status": "proved",
   "theorems": [
    "Dsrg.C53_antisymmetric",
    "Dsrg.C53_scale",
    "Dsrg.C53_example"
   ],
   "note": ""
  },
  {
   "property": "C54",
   "status": "partial",
   "theorems": [
    "Dsrg.C54_partial",
    "Dsrg.C54_example",
    "Dsrg.C54_violation"
   ],
   "note": "Proved except when fewer than two operators are non-empty: then the product is returned unfiltered (violation proved)."
  },
  {
   "property": "C55",
   "status": "proved",
   "theorems": [
    "Dsrg.C55_bch",
    "Dsrg.C55_nested"
   ],
   "note": "Both for bch_cc_rsc, whatever the number of levels, and for nested_commutator_cc."
  },
  {
   "property": "C56",
   "status": "partial",
   "theorems": [
    "Dsrg.C56_nested_partial",
    "Dsrg.C56_violation_zero"
   ],
   "note": "Proved for every k >= 1 and every binary operation; for k = 0 the code returns [A,B] (violation proved)."
  },
  {
   "property": "C57",
   "status": "partial",
   "theorems": [
    "Dsrg.C57_violation",
    "Dsrg.C57_hamiltonian_partial",
    "Dsrg.C57_start"
   ],
   "note": "Violated when there are active orbitals: level 0 is expanded with single_reference=True whatever the caller asks for, so no label of an active orbital occurs. Without active orbitals the terms of level 0 add up to the Hamiltonian."
  },
  {
   "property": "C58",
   "status": "proved",
   "theorems": [
    "Dsrg.C58_partition",
    "Dsrg.C58_key",
    "Dsrg.C58_total",
    "Dsrg.C58_example"
   ],
   "note": "Includes totality for antisymmetric terms without diagonal labels."
  },
  {
   "property": "C59",
   "status": "partial",
   "theorems": [
    "Dsrg.C59_labelings",
    "Dsrg.C59_value_partial",
    "Dsrg.C59_example",
    "Dsrg.C59_violation_only_deltas",
    "Dsrg.C59_library_labelings",
    "Dsrg.C59_library",
    "Dsrg.C59_library_example"
   ],
   "note": "Every term that can be built with the library (LibraryTerm: amplitudes and Hamiltonians and everything that products, commutators, combination, copies, canonicalization, blocks, excitation and diagonal parts and gradients make of them): the call returns, with one canonical form per consistent spin-conserving labeling (C59_library_labelings), and the spin cases add up to the term (C59_library). For any other term C59_labelings says which labelings are returned and C59_value_partial needs that no labeling raises ValueError, because the code swallows ValueError: a product of deltas only is lost (C59_violation_only_deltas)."
  },
  {
   "property": "C60",
   "status": "partial",
   "theorems": [
    "Dsrg.C60_main",
    "Dsrg.C60_blocks",
    "Dsrg.C60_violation_transpose",
    "Dsrg.C60_violation_unbalanced",
    "Dsrg.C60_example"
   ],
   "note": "Exact condition proved; violations proved for add_t_dagger without a scalar block and for operators that change the number of particles."
  },
  {
   "property": "C61",
   "status": "partial",
   "theorems": [
    "Dsrg.C61_library",
    "Dsrg.C61_library_example",
    "Dsrg.C61_violation_no_tensors",
    "Dsrg.C61_violation_scalar",
    "Dsrg.C61_violation_only_deltas",
    "Dsrg.C61_violation_vanishing",
    "Dsrg.C61_simplify_partial"
   ],
   "note": "Four violations proved; on every term that contract_terms simplifies (contractions of library terms) simplify succeeds. simplify returns on every term that can be built with the library (C61_library)."
  },
  {
   "property": "C62",
   "status": "partial",
   "theorems": [
    "Dsrg.C62_library",
    "Dsrg.C62_excitation_part_partial",
    "Dsrg.C62_zero",
    "Dsrg.C62_example",
    "Dsrg.C62_violation_beta"
   ],
   "note": "Proved whenever the call returns, for alpha or spin-orbital labels; operators with beta labels are always replaced by zero (violation proved). For every term built with the library whose operator labels are not all active the call returns and the result is the excitation part (C62_library)."
  },
  {
   "property": "C63",
   "status": "proved",
   "theorems": [
    "Dsrg.C63_format",
    "Dsrg.C63_exact",
    "Dsrg.C63_float",
    "Dsrg.C63_injective"
   ],
   "note": ""
  },
  {
   "property": "C64",
   "status": "proved",
   "theorems": [
    "Dsrg.C64_restored",
    "Dsrg.C64_failure",
    "Dsrg.C64_cannot_enter",
    "Dsrg.C64_example"
   ],
   "note": ""
  },
  {
   "property": "C65",
   "status": "partial",
   "theorems": [
    "Dsrg.C65_order_partial",
    "Dsrg.C65_equal_partial",
    "Dsrg.C65_almost_equal",
    "Dsrg.C65_equal_agrees_partial",
    "Dsrg.C65_error",
    "Dsrg.C65_violation_equal_and_less",
    "Dsrg.C65_violation_not_transitive"
   ],
   "note": "<, <=, >, >= proved a total order; == uses a tolerance and disagrees (violations proved). == and != are characterized exactly (C65_equal_partial), almost_equal too."
  },
  {
   "property": "C66",
   "status": "partial",
   "theorems": [
    "Dsrg.C66_contract_terms_connected_partial",
    "Dsrg.C66_contract_terms",
    "Dsrg.C66_single_commutator",
    "Dsrg.C66_example",
    "Dsrg.C66_violation_four_operators"
   ],
   "note": "for_commutator=False for every product; for_commutator=True for products of at most three operators or with one operator in every contraction, because otherwise the search for connected contractions is incomplete (C31_violation_four_operators): a product of four operators whose returned terms do not add up to its connected contractions is exhibited (C66_violation_four_operators)."
  },
  {
   "property": "C67",
   "status": "partial",
   "theorems": [
    "Dsrg.C67_library",
    "Dsrg.C67_diagonal_part_partial",
    "Dsrg.C67_other_operators",
    "Dsrg.C67_violation_density",
    "Dsrg.C67_example"
   ],
   "note": "Proved whenever the call returns; labels shared by densities and the operator must be core, active or virtual. C67_violation_density shows that the condition is needed: the core block of a two-body density comes back as a non-zero off-diagonal term. For every one-body term built with the library the call returns and the conditions hold (C67_library)."
  },
  {
   "property": "C68",
   "status": "proved",
   "theorems": [
    "Dsrg.C68_library",
    "Dsrg.C68_library_example",
    "Dsrg.C68_gradient",
    "Dsrg.C68_count",
    "Dsrg.C68_example"
   ],
   "note": "Proved whenever the call returns; derivative expressed with a nilpotent parameter. For terms without operator and densities built with the library the call returns (C68_library)."
  },
  {
   "property": "C69",
   "status": "proved",
   "theorems": [
    "Dsrg.C69_print",
    "Dsrg.C69_function",
    "Dsrg.C69_example",
    "Dsrg.C69_condition_needed"
   ],
   "note": "Proved for terms with as many creation as annihilation operators; the condition on the operators is shown to be needed for antisymmetry."
  },
  {
   "property": "C70",
   "status": "partial",
   "theorems": [
    "Dsrg.C70_violation_ignored",
    "Dsrg.C70_violation_example"
   ],
   "note": "Violation proved for every generated function, with a nonzero example."
  },
  {
   "property": "C71",
   "status": "proved",
   "theorems": [
    "Dsrg.C71_dagger",
    "Dsrg.C71_example"
   ],
   "note": ""
  },
  {
   "property": "C72",
   "status": "partial",
   "theorems": [
    "Dsrg.C72_names",
    "Dsrg.C72_violation_density"
   ],
   "note": "Exact condition; a term with a density is shown to raise KeyError."
  },
  {
   "property": "C73",
   "status": "partial",
   "theorems": [
    "Dsrg.C73_violation_unbalanced"
   ],
   "note": "Violation proved; the number-conserving case is C69."
  },
  {
   "property": "C74",
   "status": "partial",
   "theorems": [
    "Dsrg.C74_nested_partial",
    "Dsrg.C74_nested_connected_partial",
    "Dsrg.C74_violation_three_commutators"
   ],
   "note": "At least one body per amplitude and coefficients above the 1e-15 threshold of combine_terms. for_commutator=False: every number of commutators. for_commutator=True: at most two commutators, or any number with excitation operators only and a single-determinant reference; missing: three or more commutators in the unitary or multireference case, where contractions are lost (C74_violation_three_commutators: no choice of connected contractions adds up to the terms returned)."
  },
  {
   "property": "C75",
   "status": "proved",
   "theorems": [
    "Dsrg.C75_bch",
    "Dsrg.C75_example"
   ],
   "note": "Holds as long as 4*(K!^2)^n*n! <= 10^15 for n levels and amplitudes of at most K bodies; smaller coefficients are dropped by combine_terms."
  },
  {
   "property": "C76",
   "status": "proved",
   "theorems": [
    "Dsrg.C76_contract_terms",
    "Dsrg.C76_single_commutator",
    "Dsrg.C76_linear_commutator",
    "Dsrg.C76_recursive_single_commutator",
    "Dsrg.C76_bch_cc_rsc",
    "Dsrg.C76_nested_commutator_cc",
    "Dsrg.C76_example",
    "Dsrg.C76_process_needed",
    "Dsrg.C76_levels_needed"
   ],
   "note": "For operators in spin orbitals with at least one body; n_process=0 and an empty list of levels are shown to raise. ValueErrors for a wrong number of options per level are raised before the modelled loops."
  },
  {
   "property": "C77",
   "status": "proved",
   "theorems": [
    "Dsrg.C77_contract_terms",
    "Dsrg.C77_library",
    "Dsrg.C77_example"
   ],
   "note": "For products in which nothing is cut off and whose coefficient is not below the threshold of combine_terms. A correctly normal-ordered interpretation on two orbitals is exhibited by 4x4 matrices."
  },
  {
   "property": "C78",
   "status": "proved",
   "theorems": [
    "Dsrg.C78_single_commutator",
    "Dsrg.C78_library"
   ],
   "note": "Both modes of for_commutator."
  },
  {
   "property": "C79",
   "status": "proved",
   "theorems": [
    "Dsrg.C79_level",
    "Dsrg.C79_sum",
    "Dsrg.C79_example"
   ],
   "note": "H is the Hamiltonian without active orbitals, because level 0 of the code leaves them out (C57_violation). Coefficients above the threshold of combine_terms. Example with 4x4 matrices in which the second commutator is not zero."
  },
  {
   "property": "C80",
   "status": "partial",
   "theorems": [
    "Dsrg.C80_nested_connected_partial",
    "Dsrg.C80_connected_example",
    "Dsrg.C80_connected_example_unitary",
    "Dsrg.C80_violation_three_commutators",
    "Dsrg.C80_nested_partial",
    "Dsrg.C80_example"
   ],
   "note": "for_commutator=False: proved for every number of commutators. for_commutator=True, the default (disconnected contractions cancel in the nested commutator): proved for at most two commutators, or any number with excitation operators only and a single-determinant reference; from three commutators on in the unitary formalism it is false, a counterexample with two orbitals is proved (C80_violation_three_commutators): the search for connected contractions loses contractions."
  },
  {
   "property": "C81",
   "status": "proved",
   "theorems": [
    "Dsrg.C81_linear_commutator",
    "Dsrg.C81_linear_commutator_amp",
    "Dsrg.C81_recursive_single_commutator",
    "Dsrg.C81_example"
   ],
   "note": ""
  },
  {
   "property": "C82",
   "status": "partial",
   "theorems": [
    "Dsrg.C82_value",
    "Dsrg.C82_one_spin_partial",
    "Dsrg.C82_type_error",
    "Dsrg.C82_example",
    "Dsrg.C82_violation_two_spins"
   ],
   "note": "Exact factor proved (C82_value): the rows add up to (spin-preserving permutations / all permutations of the operator labels) times the term. They add up to the term when each side of the operator has one spin or is empty (C82_one_spin_partial); for an operator with alpha and beta labels the result is too small (violation proved). Assumes a CanonContract canonicaliser, |coefficient| above the truncation threshold and separated deltas, as in C43; terms with diagonal labels are left out."
  },
  {
   "property": "C83",
   "status": "proved",
   "theorems": [
    "Dsrg.C83_diagonal_fock",
    "Dsrg.C83_dyall",
    "Dsrg.C83_fink",
    "Dsrg.C83_example"
   ],
   "note": ""
  },
  {
   "property": "C84",
   "status": "partial",
   "theorems": [
    "Dsrg.C84_latex",
    "Dsrg.C84_plain",
    "Dsrg.C84_unambiguous",
    "Dsrg.C84_different_terms",
    "Dsrg.C84_print",
    "Dsrg.C84_print_partial",
    "Dsrg.C84_example",
    "Dsrg.C84_violation_rows"
   ],
   "note": "Meaning, unambiguity and exactly-once printing are proved. Rows of one environment are separated if all its terms have the same P (C84_print_partial); terms with different P end up on one row (C84_violation_rows)."
  },
  {
   "property": "C85",
   "status": "proved",
   "theorems": [
    "Dsrg.C85_canonical_form",
    "Dsrg.C85_plain_terms",
    "Dsrg.C85_result",
    "Dsrg.C85_converse",
    "Dsrg.C85_example",
    "Dsrg.C85_simple_is_not_canonical"
   ],
   "note": "SymPy's canonicalize is a parameter with the assumptions CanonContract and CanonUnique. C85_canonical_form compares the simplified terms; C85_plain_terms needs no simplification step but asks for terms without Kronecker deltas and diagonal labels, with active labels in cumulants. C85_result and C85_converse show that no two different terms are brought to one form. C85_simple_is_not_canonical shows that canonicalize_simple lacks the property."
  },
  {
   "property": "C86",
   "status": "proved",
   "theorems": [
    "Dsrg.C86_contract_terms",
    "Dsrg.C86_single_commutator",
    "Dsrg.C86_linear_commutator",
    "Dsrg.C86_recursive_single_commutator",
    "Dsrg.C86_bch_cc_rsc",
    "Dsrg.C86_nested_commutator_cc",
    "Dsrg.C86_example"
   ],
   "note": "SymPy's canonicalize is a parameter with the assumptions CanonContract and CanonUnique; the given terms are those the library builds (LibraryTerm), with separate labels."
  },
  {
   "property": "C87",
   "status": "partial",
   "theorems": [
    "Dsrg.C87_derivative_partial",
    "Dsrg.C87_no_amplitude",
    "Dsrg.C87_one_amplitude",
    "Dsrg.C87_example",
    "Dsrg.C87_violation_amplitude_alone",
    "Dsrg.C87_violation_positions"
   ],
   "note": "The derivative is proved when labels shared by the amplitude and the operator are at the same position, the spaces agree position by position and the amplitude has no repeated label. Violations: labels at other positions, and a term that is only an amplitude."
  },
  {
   "property": "C88",
   "status": "partial",
   "theorems": [
    "Dsrg.C88_contract_terms",
    "Dsrg.C88_single_commutator",
    "Dsrg.C88_linear_commutator",
    "Dsrg.C88_recursive_single_commutator",
    "Dsrg.C88_bch_cc_rsc",
    "Dsrg.C88_bch_cc_rsc_sum",
    "Dsrg.C88_nested_commutator_cc",
    "Dsrg.C88_arrays_exist",
    "Dsrg.C88_example",
    "Dsrg.C88_violation_hole_density"
   ],
   "note": "Proved for code made with expand_hole=True, for contract_terms, single_commutator, linear_commutator, recursive_single_commutator, bch_cc_rsc and nested_commutator_cc (with all contractions, or connected ones and at most two commutators or a single determinant), under the conditions of C77 to C81. The tensors are symmetric under exchange of upper and lower labels (real orbitals). Violation: hole densities share the array name C1 with the one-body target."
  },
  {
   "property": "C89",
   "status": "partial",
   "theorems": [
    "Dsrg.C89_update",
    "Dsrg.C89_dsrg",
    "Dsrg.C89_antisymmetric",
    "Dsrg.C89_total",
    "Dsrg.C89_declared_partial",
    "Dsrg.C89_violation_undeclared",
    "Dsrg.C89_example"
   ],
   "note": "The update, its DSRG form, antisymmetry and totality are proved. Declaredness of T3 holds exactly if some term has the factor T3; violation for terms of H, T1 and T2. Fd, s_, rms_t3, T3norm and T3max are taken to be class members."
  },
  {
   "property": "C90",
   "status": "partial",
   "theorems": [
    "Dsrg.C90_term",
    "Dsrg.C90_print",
    "Dsrg.C90_runs",
    "Dsrg.C90_diagonal",
    "Dsrg.C90_violation_no_tensors",
    "Dsrg.C90_violation_one_sided",
    "Dsrg.C90_example"
   ],
   "note": "Proved for terms in which every tensor has labels on both sides (Readable). C90_diagonal: the comment of a term with diagonal labels does not change what is read. C90_violation_no_tensors and C90_violation_one_sided show that the text is not C++ otherwise."
  },
  {
   "property": "C91",
   "status": "partial",
   "theorems": [
    "Dsrg.C91_files",
    "Dsrg.C91_runs",
    "Dsrg.C91_violation_no_terms",
    "Dsrg.C91_example"
   ],
   "note": "Proved for non-empty lists of readable terms. C91_violation_no_terms shows that without terms the written files cannot be read."
  },
  {
   "property": "C92",
   "status": "partial",
   "theorems": [
    "Dsrg.C92_file",
    "Dsrg.C92_runs",
    "Dsrg.C92_violation_placeholder",
    "Dsrg.C92_example"
   ],
   "note": "Proved for names without placeholders. C92_violation_placeholder shows a file that cannot be read otherwise."
  },
  {
   "property": "C93",
   "status": "partial",
   "theorems": [
    "Dsrg.C93_loops",
    "Dsrg.C93_uses",
    "Dsrg.C93_violation_nested",
    "Dsrg.C93_violation_hash",
    "Dsrg.C93_violation_endless",
    "Dsrg.C93_example"
   ],
   "note": "Proved for programs in which no loop over an object goes through the same object in its body; three violations otherwise."
  },
  {
   "property": "C94",
   "status": "partial",
   "theorems": [
    "Dsrg.C94_violation_construct",
    "Dsrg.C94_counts_partial",
    "Dsrg.C94_total_partial",
    "Dsrg.C94_order",
    "Dsrg.C94_incomparable",
    "Dsrg.C94_transpose_partial",
    "Dsrg.C94_example"
   ],
   "note": "The constructor as written always raises (C94_violation_construct). The remaining statements are proved for the constructor with the attribute `indices_type`; order and transposition do not depend on it."
  },
  {
   "property": "C95",
   "status": "partial",
   "theorems": [
    "Dsrg.C95_indices",
    "Dsrg.C95_pairs",
    "Dsrg.C95_tensors",
    "Dsrg.C95_violation_classes",
    "Dsrg.C95_terms_partial",
    "Dsrg.C95_violation_terms",
    "Dsrg.C95_example"
   ],
   "note": "Proved for label lists, pairs, operators and tensors of one class of labels, and for terms whose coefficients are printed equally; violations otherwise."
  },
  {
   "property": "C96",
   "status": "partial",
   "theorems": [
    "Dsrg.C96_library",
    "Dsrg.C96_library_value",
    "Dsrg.C96_library_example",
    "Dsrg.C96_fresh_partial",
    "Dsrg.C96_history_partial",
    "Dsrg.C96_violation_void",
    "Dsrg.C96_violation_shared",
    "Dsrg.C96_example"
   ],
   "note": "Proved for terms whose densities and operator have distinct labels (as contractions give); the exact repetition needs that the term does not vanish. For all terms of the library the conditions hold and no call raises (C96_library). Two violations otherwise."
  },
  {
   "property": "C97",
   "status": "partial",
   "theorems": [
    "Dsrg.C97_raise_partial",
    "Dsrg.C97_state_partial",
    "Dsrg.C97_violation_shared",
    "Dsrg.C97_example"
   ],
   "note": "Proved for terms whose densities and operator have distinct labels; violation otherwise."
  },
  {
   "property": "C98",
   "status": "partial",
   "theorems": [
    "Dsrg.C98_exact",
    "Dsrg.C98_reads",
    "Dsrg.C98_roundtrip",
    "Dsrg.C98_errors",
    "Dsrg.C98_violation_empty_name",
    "Dsrg.C98_violation_repeated",
    "Dsrg.C98_example"
   ],
   "note": "Exact language of accepted texts and round trip proved; violations: empty names raise IndexError, and `g1, g01` is accepted as two labels."
  },
  {
   "property": "C99",
   "status": "partial",
   "theorems": [
    "Dsrg.C99_errors",
    "Dsrg.C99_pair",
    "Dsrg.C99_tensor",
    "Dsrg.C99_copies",
    "Dsrg.C99_violation_mixed",
    "Dsrg.C99_example"
   ],
   "note": "Exact condition and copies proved; violation: the two label arguments must be given in the same format."
  },
  {
   "property": "C100",
   "status": "proved",
   "theorems": [
    "Dsrg.C100_library",
    "Dsrg.C100_value",
    "Dsrg.C100_code",
    "Dsrg.C100_spin_cases",
    "Dsrg.C100_continues",
    "Dsrg.C100_example"
   ],
   "note": "Every computation of any length; the conditions are those of Wick's theorem, separate labels, coefficients the library does not take for zero, and no limits on what is kept."
  },
  {
   "property": "C101",
   "status": "proved",
   "theorems": [
    "Dsrg.C101_nested_commutator_cc",
    "Dsrg.C101_recursive_single_commutator",
    "Dsrg.C101_contract_terms",
    "Dsrg.C101_single_commutator",
    "Dsrg.C101_linear_commutator",
    "Dsrg.C101_bch_cc_rsc",
    "Dsrg.C101_library"
   ],
   "note": "All limits; the conditions are those of C77-C81 without the condition that the limits cut off nothing. nested_commutator_cc in the modes of C80: all contractions, or connected ones and at most two commutators or excitations of a single determinant."
  },
  {
   "property": "C102",
   "status": "proved",
   "theorems": [
    "Dsrg.C102_bch_cc_rsc",
    "Dsrg.C102_example",
    "Dsrg.C102_code"
   ],
   "note": "Lower limits of at most zero; the limits of a level may cut off anything else."
  },
  {
   "property": "C103",
   "status": "proved",
   "theorems": [
    "Dsrg.C103_nested_commutator_cc",
    "Dsrg.C103_linear_commutator",
    "Dsrg.C103_recursive_single_commutator",
    "Dsrg.C103_example_nested",
    "Dsrg.C103_cumulants",
    "Dsrg.C103_contract_terms",
    "Dsrg.C103_single_commutator",
    "Dsrg.C103_bch_cc_rsc",
    "Dsrg.C103_library",
    "Dsrg.C103_example"
   ],
   "note": "All references; the conditions are those of C101."
  },
  {
   "property": "C104",
   "status": "proved",
   "theorems": [
    "Dsrg.C104_library",
    "Dsrg.C104_combined",
    "Dsrg.C104_program",
    "Dsrg.C104_bch_cc_rsc",
    "Dsrg.C104_example",
    "Dsrg.C104_bch_example"
   ],
   "note": "Terms without hole densities (with them see C88); coefficients that are not taken for zero."
  },
  {
   "property": "C105",
   "status": "proved",
   "theorems": [
    "Dsrg.C105_contract_terms",
    "Dsrg.C105_single_commutator",
    "Dsrg.C105_linear_commutator",
    "Dsrg.C105_recursive_single_commutator",
    "Dsrg.C105_bch_cc_rsc",
    "Dsrg.C105_nested_commutator_cc",
    "Dsrg.C105_example"
   ],
   "note": "Exact arithmetic; SymPy's canonical form is the same function in both calls."
  },
  {
   "property": "C106",
   "status": "partial",
   "theorems": [
    "Dsrg.C106_canonicalize",
    "Dsrg.C106_library",
    "Dsrg.C106_gradient_t",
    "Dsrg.C106_generate_spin_cases",
    "Dsrg.C106_make_excitation",
    "Dsrg.C106_make_one_body_diagonal",
    "Dsrg.C106_blocks_partial",
    "Dsrg.C106_zeroth_order",
    "Dsrg.C106_violation_blocks",
    "Dsrg.C106_example"
   ],
   "note": "Blocks: proved when all labels are labels of the operator; violated otherwise (the numbers of contracted labels depend on the hash seed)."
  },
  {
   "property": "C107",
   "status": "proved",
   "theorems": [
    "Dsrg.C107_bch_cc_rsc",
    "Dsrg.C107_linear_commutator_amp",
    "Dsrg.C107_nested_commutator_cc",
    "Dsrg.C107_example"
   ],
   "note": "bch_cc_rsc for every level and all limits; nested_commutator_cc with connected contractions for at most two commutators (with three see C80)."
  },
  {
   "property": "C108",
   "status": "proved",
   "theorems": [
    "Dsrg.C108_contract_terms",
    "Dsrg.C108_single_commutator",
    "Dsrg.C108_linear_commutator",
    "Dsrg.C108_linear_commutator_amp",
    "Dsrg.C108_recursive_single_commutator",
    "Dsrg.C108_bch_cc_rsc",
    "Dsrg.C108_nested_commutator_cc",
    "Dsrg.C108_example"
   ],
   "note": "All seven functions, every level; contract_terms for factors with operators (a factor without operators stays a separate factor)."
  },
  {
   "property": "C109",
   "status": "proved",
   "theorems": [
    "Dsrg.C109_contract_terms",
    "Dsrg.C109_single_commutator",
    "Dsrg.C109_linear_commutator",
    "Dsrg.C109_recursive_single_commutator",
    "Dsrg.C109_bch_cc_rsc",
    "Dsrg.C109_nested_commutator_cc",
    "Dsrg.C109_example"
   ],
   "note": "All functions, every level and both modes; linear_commutator_amp is linear_commutator with amplitudes."
  },
  {
   "property": "C110",
   "status": "proved",
   "theorems": [
    "Dsrg.C110_single_commutator",
    "Dsrg.C110_linear_commutator",
    "Dsrg.C110_bch_cc_rsc",
    "Dsrg.C110_example"
   ],
   "note": "Connected mode, the default of all functions; the general mode is not covered."
  },
  {
   "property": "C111",
   "status": "proved",
   "theorems": [
    "Dsrg.C111_amplitudes_commute",
    "Dsrg.C111_lowering",
    "Dsrg.C111_bch_cc_rsc",
    "Dsrg.C111_nested_commutator_cc",
    "Dsrg.C111_example",
    "Dsrg.C111_example_nested"
   ],
   "note": "Connected mode, the default; the general mode is not covered."
  },
  {
   "property": "C112",
   "status": "proved",
   "theorems": [
    "Dsrg.C112_five_commutators",
    "Dsrg.C112_similarity_transformation",
    "Dsrg.C112_energy",
    "Dsrg.C112_printed_code",
    "Dsrg.C112_nested_commutator_cc",
    "Dsrg.C112_example",
    "Dsrg.C112_example_energy",
    "Dsrg.C112_example_nested"
   ],
   "note": "Single determinant without active orbitals; limits that cut off nothing; coefficients above the threshold of combine_terms (amplitudes of up to three bodies with five levels)."
  },
  {
   "property": "C113",
   "status": "proved",
   "theorems": [
    "Dsrg.C113_single_commutator",
    "Dsrg.C113_bch_cc_rsc",
    "Dsrg.C113_energy",
    "Dsrg.C113_nested_commutator_cc",
    "Dsrg.C113_three_commutators",
    "Dsrg.C113_coupled_cluster_energy",
    "Dsrg.C113_example",
    "Dsrg.C113_example_energy",
    "Dsrg.C113_example_nested"
   ],
   "note": "Connected mode, except for nested_commutator_cc (both modes). The energy: single determinant without active orbitals, limits that cut off nothing, coefficients above the threshold of combine_terms."
  }
 ]
}