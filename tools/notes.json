{
 "C01": {
  "note": "find_space_label is right on intersections of label sets (its only use in the package). On arbitrary sets it is wrong: {c,v} gives p, {a,A} gives None (violations proved)."
 },
 "C02": {
  "note": "Order theorems hold; == compares the raw dictionary, so it disagrees with the order on counters that have equal scaling (violations proved)."
 },
 "C03": {
  "note": "ASCII strings; python's isdigit also accepts other unicode digits."
 },
 "C05": {
  "note": "Equality and hash agree for canonical names; g01 and g1 are equal with different hashes (violation proved)."
 },
 "C14": {
  "note": "Both modes, with exact counts."
 },
 "C15": {
  "note": "Indices, pairs and tensors; tensor equality ignores the tensor class, as the code does."
 },
 "C20": {
  "note": "For n >= 2; the behaviour for 0 and 1 is proved separately."
 },
 "C22": {
  "note": "Includes the behaviour for non-positive requests."
 },
 "C29": {
  "status": "partial",
  "note": "Proved for the call with compatible (the only one the package makes); without it the call raises TypeError (violation proved)."
 },
 "C30": {
  "note": "For any list of distinct, valid categories; includes independence of the model's fuel."
 },
 "C31": {
  "note": "True for up to three operators and for any number of operators with a common operator in all categories; a four-operator counterexample is proved."
 },
 "C36": {
  "note": "Depth n+1 proved for every run; limit exceeded for every n >= 1000 (violation), sufficient below."
 },
 "C40": {
  "note": "Proved when deltas share no label with another delta or density and many-body densities can be active (the shape contractions produce); without that the value can change (four violations proved). For every term that can be built with the library (LibraryTerm) no condition is left: simplify and canonicalize_simple return and keep the value (C40_library, C40_library_simple)."
 },
 "C42": {
  "note": "Coefficients in (0, 1e-15), which is_void takes for zero, are excluded."
 },
 "C61": {
  "note": "Four violations proved; on every term that contract_terms simplifies (contractions of library terms) simplify succeeds. simplify returns on every term that can be built with the library (C61_library)."
 },
 "C52": {
  "note": "Idempotence proved; the inputs are overwritten, so a second call on the same list differs (violation proved)."
 },
 "C65": {
  "note": "<, <=, >, >= proved a total order; == uses a tolerance and disagrees (violations proved). == and != are characterized exactly (C65_equal_partial), almost_equal too."
 },
 "C43": {
  "note": "Proved for operators with as many creation as annihilation labels, SymPy's canonicalize being any function with its documented contract. Violations: vanishing terms raise TypeError; for other operators the symmetries mix creation and annihilation labels. For every term that can be built with the library (LibraryTerm) no condition is left: canonicalize and canonicalize_sympy return and keep the value (C43_library)."
 },
 "C44": {
  "note": "Proved for operators without a diagonal label (one that is both created and annihilated), including totality; with a diagonal label the blocks are counted several times (violation proved). For every term that can be built with the library (LibraryTerm) no condition is left: expand_composite_indices returns and the blocks add up (C44_library)."
 },
 "C62": {
  "note": "Proved whenever the call returns, for alpha or spin-orbital labels; operators with beta labels are always replaced by zero (violation proved). For every term built with the library whose operator labels are not all active the call returns and the result is the excitation part (C62_library)."
 },
 "C67": {
  "note": "Proved whenever the call returns; labels shared by densities and the operator must be core, active or virtual. C67_violation_density shows that the condition is needed: the core block of a two-body density comes back as a non-zero off-diagonal term. For every one-body term built with the library the call returns and the conditions hold (C67_library)."
 },
 "C68": {
  "note": "Proved whenever the call returns; derivative expressed with a nilpotent parameter. For terms without operator and densities built with the library the call returns (C68_library)."
 },
 "C59": {
  "note": "Every term that can be built with the library (LibraryTerm: amplitudes and Hamiltonians and everything that products, commutators, combination, copies, canonicalization, blocks, excitation and diagonal parts and gradients make of them): the call returns, with one canonical form per consistent spin-conserving labeling (C59_library_labelings), and the spin cases add up to the term (C59_library). For any other term C59_labelings says which labelings are returned and C59_value_partial needs that no labeling raises ValueError, because the code swallows ValueError: a product of deltas only is lost (C59_violation_only_deltas)."
 },
 "C45": {
  "note": "For constructed terms without diagonal labels; the partition is proved to split the open labels by the factor that carries them."
 },
 "C46": {
  "note": "Both label kinds; the normalisation is proved exactly. Without temp (init_temp and declared_temp off) permutations are dropped (counterexample proved beside it)."
 },
 "C47": {
  "note": "Number of paths, soundness and completeness over all binary contraction trees, and optimality of both reported costs."
 },
 "C56": {
  "note": "Proved for every k >= 1 and every binary operation; for k = 0 the code returns [A,B] (violation proved)."
 },
 "C58": {
  "note": "Includes totality for antisymmetric terms without diagonal labels."
 },
 "C60": {
  "note": "Exact condition proved; violations proved for add_t_dagger without a scalar block and for operators that change the number of particles."
 },
 "C69": {
  "note": "Proved for terms with as many creation as annihilation operators; the condition on the operators is shown to be needed for antisymmetry."
 },
 "C70": {
  "note": "Violation proved for every generated function, with a nonzero example."
 },
 "C72": {
  "note": "Exact condition; a term with a density is shown to raise KeyError."
 },
 "C73": {
  "note": "Violation proved; the number-conserving case is C69."
 },
 "C74": {
  "note": "At least one body per amplitude and coefficients above the 1e-15 threshold of combine_terms. for_commutator=False: every number of commutators. for_commutator=True: at most two commutators, or any number with excitation operators only and a single-determinant reference; missing: three or more commutators in the unitary or multireference case, where contractions are lost (C74_violation_three_commutators: no choice of connected contractions adds up to the terms returned)."
 },
 "C75": {
  "note": "Holds as long as 4*(K!^2)^n*n! <= 10^15 for n levels and amplitudes of at most K bodies; smaller coefficients are dropped by combine_terms."
 },
 "C55": {
  "note": "Both for bch_cc_rsc, whatever the number of levels, and for nested_commutator_cc."
 },
 "C57": {
  "note": "Violated when there are active orbitals: level 0 is expanded with single_reference=True whatever the caller asks for, so no label of an active orbital occurs. Without active orbitals the terms of level 0 add up to the Hamiltonian."
 },
 "C76": {
  "note": "For operators in spin orbitals with at least one body; n_process=0 and an empty list of levels are shown to raise. ValueErrors for a wrong number of options per level are raised before the modelled loops."
 },
 "C77": {
  "note": "For products in which nothing is cut off and whose coefficient is not below the threshold of combine_terms. A correctly normal-ordered interpretation on two orbitals is exhibited by 4x4 matrices."
 },
 "C78": {
  "note": "Both modes of for_commutator."
 },
 "C79": {
  "note": "H is the Hamiltonian without active orbitals, because level 0 of the code leaves them out (C57_violation). Coefficients above the threshold of combine_terms. Example with 4x4 matrices in which the second commutator is not zero."
 },
 "C80": {
  "note": "for_commutator=False: proved for every number of commutators. for_commutator=True, the default (disconnected contractions cancel in the nested commutator): proved for at most two commutators, or any number with excitation operators only and a single-determinant reference; from three commutators on in the unitary formalism it is false, a counterexample with two orbitals is proved (C80_violation_three_commutators): the search for connected contractions loses contractions."
 },
 "C66": {
  "note": "for_commutator=False for every product; for_commutator=True for products of at most three operators or with one operator in every contraction, because otherwise the search for connected contractions is incomplete (C31_violation_four_operators): a product of four operators whose returned terms do not add up to its connected contractions is exhibited (C66_violation_four_operators)."
 },
 "C82": {
  "note": "Exact factor proved (C82_value): the rows add up to (spin-preserving permutations / all permutations of the operator labels) times the term. They add up to the term when each side of the operator has one spin or is empty (C82_one_spin_partial); for an operator with alpha and beta labels the result is too small (violation proved). Assumes a CanonContract canonicaliser, |coefficient| above the truncation threshold and separated deltas, as in C43; terms with diagonal labels are left out."
 },
 "C85": {
  "note": "SymPy's canonicalize is a parameter with the assumptions CanonContract and CanonUnique. C85_canonical_form compares the simplified terms; C85_plain_terms needs no simplification step but asks for terms without Kronecker deltas and diagonal labels, with active labels in cumulants. C85_result and C85_converse show that no two different terms are brought to one form. C85_simple_is_not_canonical shows that canonicalize_simple lacks the property.",
  "status": "proved"
 },
 "C86": {
  "note": "SymPy's canonicalize is a parameter with the assumptions CanonContract and CanonUnique; the given terms are those the library builds (LibraryTerm), with separate labels."
 },
 "C87": {
  "note": "The derivative is proved when labels shared by the amplitude and the operator are at the same position, the spaces agree position by position and the amplitude has no repeated label. Violations: labels at other positions, and a term that is only an amplitude."
 },
 "C88": {
  "note": "Proved for code made with expand_hole=True, for contract_terms, single_commutator, linear_commutator, recursive_single_commutator, bch_cc_rsc and nested_commutator_cc (with all contractions, or connected ones and at most two commutators or a single determinant), under the conditions of C77 to C81. The tensors are symmetric under exchange of upper and lower labels (real orbitals). Violation: hole densities share the array name C1 with the one-body target."
 },
 "C89": {
  "note": "The update, its DSRG form, antisymmetry and totality are proved. Declaredness of T3 holds exactly if some term has the factor T3; violation for terms of H, T1 and T2. Fd, s_, rms_t3, T3norm and T3max are taken to be class members."
 },
 "C90": {
  "note": "Proved for terms in which every tensor has labels on both sides (Readable). C90_diagonal: the comment of a term with diagonal labels does not change what is read. C90_violation_no_tensors and C90_violation_one_sided show that the text is not C++ otherwise."
 },
 "C91": {
  "note": "Proved for non-empty lists of readable terms. C91_violation_no_terms shows that without terms the written files cannot be read."
 },
 "C92": {
  "note": "Proved for names without placeholders. C92_violation_placeholder shows a file that cannot be read otherwise."
 },
 "C93": {
  "note": "Proved for programs in which no loop over an object goes through the same object in its body; three violations otherwise."
 },
 "C94": {
  "note": "The constructor as written always raises (C94_violation_construct). The remaining statements are proved for the constructor with the attribute `indices_type`; order and transposition do not depend on it."
 },
 "C95": {
  "note": "Proved for label lists, pairs, operators and tensors of one class of labels, and for terms whose coefficients are printed equally; violations otherwise."
 },
 "C54": {
  "note": "Proved except when fewer than two operators are non-empty: then the product is returned unfiltered (violation proved)."
 },
 "C84": {
  "note": "Meaning, unambiguity and exactly-once printing are proved. Rows of one environment are separated if all its terms have the same P (C84_print_partial); terms with different P end up on one row (C84_violation_rows)."
 },
 "C96": {
  "note": "Proved for terms whose densities and operator have distinct labels (as contractions give); the exact repetition needs that the term does not vanish. For all terms of the library the conditions hold and no call raises (C96_library). Two violations otherwise."
 },
 "C97": {
  "note": "Proved for terms whose densities and operator have distinct labels; violation otherwise."
 },
 "C98": {
  "note": "Exact language of accepted texts and round trip proved; violations: empty names raise IndexError, and `g1, g01` is accepted as two labels."
 },
 "C99": {
  "note": "Exact condition and copies proved; violation: the two label arguments must be given in the same format."
 },
 "C100": {
  "note": "Every computation of any length; the conditions are those of Wick's theorem, separate labels, coefficients the library does not take for zero, and no limits on what is kept."
 },
 "C101": {
  "note": "All limits; the conditions are those of C77-C81 without the condition that the limits cut off nothing. nested_commutator_cc in the modes of C80: all contractions, or connected ones and at most two commutators or excitations of a single determinant."
 },
 "C102": {
  "note": "Lower limits of at most zero; the limits of a level may cut off anything else."
 },
 "C103": {
  "note": "All references; the conditions are those of C101."
 },
 "C104": {
  "note": "Terms without hole densities (with them see C88); coefficients that are not taken for zero."
 },
 "C105": {
  "note": "Exact arithmetic; SymPy's canonical form is the same function in both calls."
 },
 "C106": {
  "note": "Blocks: proved when all labels are labels of the operator; violated otherwise (the numbers of contracted labels depend on the hash seed)."
 },
 "C107": {
  "note": "bch_cc_rsc for every level and all limits; nested_commutator_cc with connected contractions for at most two commutators (with three see C80)."
 },
 "C108": {
  "note": "All seven functions, every level; contract_terms for factors with operators (a factor without operators stays a separate factor)."
 },
 "C109": {
  "note": "All functions, every level and both modes; linear_commutator_amp is linear_commutator with amplitudes."
 },
 "C110": {
  "note": "Connected mode, the default of all functions; the general mode is not covered."
 },
 "C111": {
  "note": "Connected mode, the default; the general mode is not covered."
 },
 "C112": {
  "note": "Single determinant without active orbitals; limits that cut off nothing; coefficients above the threshold of combine_terms (amplitudes of up to three bodies with five levels)."
 },
 "C113": {
  "note": "Connected mode, except for nested_commutator_cc (both modes). The energy: single determinant without active orbitals, limits that cut off nothing, coefficients above the threshold of combine_terms."
 }
}