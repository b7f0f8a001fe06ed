{"id": "C01", "title": "find_space_label inverts the space relation", "statement": "find_space_label applied to any non-empty set of elementary space labels of one spin returns the label whose elementary content is exactly that set; in particular it does so for every non-empty intersection of the contents of any number of space labels, which is the only way the package itself calls it. (For the set {core, virtual}, which is not the content of any label, the code answers 'p'; that is a violation of the unrestricted reading.)", "quantifier": "every set of space labels; every finite list of labels whose contents intersect", "why_tests_cant": "the set of label lists intersected is unbounded, and the wrong answer only shows for one set the tests never pass", "anchors": ["dsrg_generator/mo_space.py:find_space_label", "dsrg_generator/mo_space.py:space_relation", "dsrg_generator/Term.py:Term.simplify"]}
{"id": "C02", "title": "MOSpaceCounter comparison is a consistent ranking of costs", "statement": "For all counters, exactly one of a<b, b<a, 'neither' holds, < is transitive and irreflexive, a<=b iff not b<a, and the overall scaling is the total number of indices counted, each label being charged to virtual/core/active as documented. Two counters that compare == have the same scaling and neither is < the other.", "quantifier": "every pair/triple of counters with arbitrary non-negative counts", "why_tests_cant": "counts are unbounded; the == part fails only for counters that mix upper and lower case keys", "anchors": ["dsrg_generator/mo_space.py:MOSpaceCounter"]}
{"id": "C03", "title": "Index accepts exactly the well-formed names", "statement": "Index(name) succeeds exactly when name is one of the twelve space letters followed by at least one decimal digit, and then records that letter and the decimal value of the digits; the empty string raises IndexError and every other string ValueError. Names built by the package from a label and a non-negative number always parse back to that label and number.", "quantifier": "every string; every (label, number)", "why_tests_cant": "infinitely many strings and numbers", "anchors": ["dsrg_generator/Index.py:Index.__init__"]}
{"id": "C04", "title": "Index comparison is a total order by space priority then number", "statement": "<, <=, >, >=, ==, != on Index are mutually consistent and form a total order: first by the fixed priority g p h v c a G P H V C A, then by number.", "quantifier": "every pair/triple of indices", "why_tests_cant": "unbounded numbers", "anchors": ["dsrg_generator/Index.py:Index.__lt__", "dsrg_generator/mo_space.py:space_priority"]}
{"id": "C05", "title": "Equal indices hash equally, so sets detect repeats", "statement": "If two Index objects compare equal then they hash equally, so the repeated-index test of Indices (len(set(...)) != size) rejects every list that contains two equal indices. (Holds for names without leading zeros; violated by g1 / g01.)", "quantifier": "every pair of index names", "why_tests_cant": "only fails for names with leading zeros that tests do not use", "anchors": ["dsrg_generator/Index.py:Index.__hash__", "dsrg_generator/Indices.py:Indices.__init__"]}
{"id": "C06", "title": "Spin flips are inverse to each other and only change the spin", "statement": "to_beta then to_alpha (or conversely) gives back an alpha (beta) index; both keep the orbital class and the number; is_beta tells exactly which of the two an index is.", "quantifier": "every index", "why_tests_cant": "unbounded numbers", "anchors": ["dsrg_generator/Index.py:Index.to_beta", "dsrg_generator/Index.py:Index.to_alpha", "dsrg_generator/Index.py:Index.is_beta"]}
{"id": "C07", "title": "Indices never hold repeated labels and keep the given order", "statement": "Construction of Indices (any kind) from a list of indices succeeds exactly when the list has no repeats (and, for spin-orbital indices, no beta label), and then the object holds exactly that list in that order; concatenation (+) fails exactly when the operands overlap.", "quantifier": "every list of indices, every index kind", "why_tests_cant": "lists of unbounded length", "anchors": ["dsrg_generator/Indices.py:Indices.__init__", "dsrg_generator/Indices.py:IndicesSpinOrbital.__init__", "dsrg_generator/Indices.py:Indices.__add__"]}
{"id": "C08", "title": "Merge sort returns a sorted permutation and the exact inversion number", "statement": "sort_and_count_inversions(l) returns a rearrangement of l in non-decreasing order together with exactly the number of pairs of positions i<j with l[j] < l[i].", "quantifier": "every list over every total order, with repeats", "why_tests_cant": "all lengths and all orders", "anchors": ["dsrg_generator/Indices.py:sort_and_count_inversions", "dsrg_generator/Indices.py:merge_and_count_split_inversion"]}
{"id": "C09", "title": "Canonicalising antisymmetric indices is a signed sort", "statement": "canonicalize returns the strictly increasing arrangement of the same indices and the parity sign of the rearrangement: it is idempotent with sign +1, any two arrangements of the same labels reach the same canonical list, exchanging two neighbouring labels flips the sign, and for every fully antisymmetric function the value on the input is sign times the value on the output. For non-antisymmetric kinds it returns the list unchanged with sign +1.", "quantifier": "every index list, every antisymmetric function", "why_tests_cant": "n! arrangements for unbounded n", "anchors": ["dsrg_generator/Indices.py:IndicesAntisymmetric.canonicalize", "dsrg_generator/Indices.py:Indices.canonicalize"]}
{"id": "C10", "title": "count_permutations measures the relative parity", "statement": "a.count_permutations(b) raises ValueError exactly when the label sets differ; otherwise (-1)^count is the sign relating a to b for every antisymmetric function, it is 0 when a = b, and signs multiply along a -> b -> c.", "quantifier": "every pair/triple of index lists", "why_tests_cant": "n! arrangements for unbounded n", "anchors": ["dsrg_generator/Indices.py:Indices.count_permutations"]}
{"id": "C11", "title": "ambit_permute_format lists every block-respecting arrangement once with its sign", "statement": "For an antisymmetric index list and a partition of it into blocks, the generator yields each arrangement of the labels that keeps the order inside every block and the spin pattern of the original exactly once, and nothing else, with the sign of that arrangement relative to the original.", "quantifier": "every index list and every partition into blocks", "why_tests_cant": "the number of arrangements grows factorially", "anchors": ["dsrg_generator/Indices.py:IndicesAntisymmetric.ambit_permute_format", "dsrg_generator/SQOperator.py:SecondQuantizedOperator.permute_indices"]}
{"id": "C12", "title": "n_multiset_permutation is the multinomial coefficient", "statement": "n_multiset_permutation(part) times the product of the factorials of the block sizes equals the factorial of the number of indices (for a full partition), so the prefactors written by latex() and ambit() divide by the exact number of emitted permutations; when all labels have the same spin it equals the number of arrangements emitted by ambit_permute_format.", "quantifier": "every partition", "why_tests_cant": "unbounded block sizes", "anchors": ["dsrg_generator/Indices.py:Indices.n_multiset_permutation", "dsrg_generator/Term.py:Term.ambit", "dsrg_generator/Term.py:Term.latex"]}
{"id": "C13", "title": "Spin cases of an index list are enumerated exactly once", "statement": "generate_spin_cases() yields each of the 2^n spin labelings exactly once; with n_beta it yields exactly the C(n, n_beta) labelings with that many beta labels, each once; forgetting spin gives back the original; n_beta > n raises ValueError.", "quantifier": "every spin-orbital index list, every n_beta", "why_tests_cant": "2^n cases for unbounded n", "anchors": ["dsrg_generator/Indices.py:IndicesSpinOrbital.generate_spin_cases"]}
{"id": "C14", "title": "Spin cases of a pair conserve spin and are complete", "statement": "IndicesPair.generate_spin_cases(particle_conserving=True) yields exactly the pairs of spin labelings with equally many beta labels above and below, each once (C(2n,n) of them for an n-body pair), and raises ValueError when the numbers of upper and lower indices differ; without the flag it yields all 2^(n+m).", "quantifier": "every pair of spin-orbital index lists", "why_tests_cant": "unbounded n", "anchors": ["dsrg_generator/IndicesPair.py:IndicesPair.generate_spin_cases_indices"]}
{"id": "C15", "title": "Comparisons of Indices, pairs and tensors are total orders that agree with equality", "statement": "For objects of one index kind, exactly one of <, ==, > holds, < is transitive, <= is 'not >', and == means identical labels in identical order (for tensors also identical name and priority). Hence sorting lists of tensors has a unique result.", "quantifier": "every pair/triple of objects", "why_tests_cant": "unbounded sizes", "anchors": ["dsrg_generator/Indices.py:Indices.__lt__", "dsrg_generator/IndicesPair.py:IndicesPair.__lt__", "dsrg_generator/Tensor.py:Tensor.comparison_tuple"]}
{"id": "C16", "title": "Hermitian conjugation is an involution", "statement": "clone(hc=True) of an operator swaps creation and annihilation labels and applying it twice gives back the operator; Term.from_term(flip_sign, hc) copies the tensors, multiplies the coefficient by -1 iff asked and conjugates iff asked, so applying it twice with the same flags restores the term.", "quantifier": "every operator and term", "why_tests_cant": "unbounded sizes", "anchors": ["dsrg_generator/IndicesPair.py:IndicesPair.clone", "dsrg_generator/Term.py:Term.from_term"]}
{"id": "C17", "title": "downgrade_indices returns exactly the orbital space the density lives on", "statement": "For a one-body cumulant / hole density / Kronecker delta with labels of spaces s,t of one spin: the returned label denotes exactly the orbitals common to s and t that are holes / particles / arbitrary respectively, and '' is returned exactly when there are none.", "quantifier": "every pair of space labels of equal spin", "why_tests_cant": "finite table, but tests sample a handful of entries", "anchors": ["dsrg_generator/Tensor.py:Cumulant.downgrade_indices", "dsrg_generator/Tensor.py:HoleDensity.downgrade_indices", "dsrg_generator/Tensor.py:Kronecker.downgrade_indices"]}
{"id": "C18", "title": "Tensor constructors reject spin-violating and ill-shaped tensors", "statement": "Cumulant, HoleDensity, Kronecker, ClusterAmplitude and HamiltonianTensor construction fails with ValueError exactly when upper and lower sizes differ, beta counts differ, (for hole density and delta) the tensor is not one-body, or (for amplitudes) upper or lower labels mix strict hole and strict particle labels.", "quantifier": "every pair of index lists", "why_tests_cant": "unbounded sizes", "anchors": ["dsrg_generator/Tensor.py:Cumulant", "dsrg_generator/Tensor.py:HoleDensity", "dsrg_generator/Tensor.py:Kronecker", "dsrg_generator/Tensor.py:ClusterAmplitude", "dsrg_generator/Tensor.py:HamiltonianTensor"]}
{"id": "C19", "title": "Expanding hole densities preserves the value", "statement": "Summing the products produced by expand_hole_densities with their signs gives the product of the original tensors, for every interpretation in which a hole density is delta minus the one-body density and the density vanishes on virtual orbitals.", "quantifier": "every list of tensors, every interpretation", "why_tests_cant": "2^n products and arbitrary tensor values", "anchors": ["dsrg_generator/sqop_contraction.py:expand_hole_densities", "dsrg_generator/Tensor.py:HoleDensity.expand"]}
{"id": "C20", "title": "integer_partition lists every partition exactly once", "statement": "For every n >= 2, integer_partition(n) terminates and yields every non-increasing list of positive integers with sum n exactly once and nothing else. (n = 1 yields nothing and n = 0 raises IndexError.)", "quantifier": "every n", "why_tests_cant": "n is unbounded; loop termination and invariants of an imperative algorithm", "anchors": ["dsrg_generator/helper/integer_partition.py:integer_partition"]}
{"id": "C21", "title": "integer_separation lists all two-part splittings", "statement": "integer_separation(n, include_zero) returns exactly the pairs (i, j) with i + j = n and i, j >= 1 (or >= 0 with include_zero), in increasing i, without repeats.", "quantifier": "every n", "why_tests_cant": "n is unbounded", "anchors": ["dsrg_generator/helper/integer_partition.py:integer_separation"]}
{"id": "C22", "title": "check_max_cu never exceeds what the operators allow", "statement": "The cumulant level used is at least 1, never larger than the number of non-core non-virtual creation (annihilation) operators when at least one exists of each, and for a request max_cu >= 1 it is the smaller of the request and that bound. (A request <= 0 is silently replaced by the largest possible level: the reading 'the level never exceeds the request' is violated.)", "quantifier": "every list of operators, every requested level", "why_tests_cant": "unbounded operator lists", "anchors": ["dsrg_generator/sqop_contraction.py:check_max_cu"]}
{"id": "C23", "title": "Pairwise contractions are complete and irredundant", "statement": "compute_elementary_contractions_pairwise lists exactly: a one-body cumulant for every creation operator of an earlier and annihilation operator of a later operator, and a hole density for every annihilation operator of an earlier and creation operator of a later one, whose spaces share a hole (particle) orbital; each exactly once and under the key (creating operator, annihilating operator).", "quantifier": "every list of operators", "why_tests_cant": "unbounded operator lists", "anchors": ["dsrg_generator/sqop_contraction.py:compute_elementary_contractions_pairwise"]}
{"id": "C24", "title": "Half cumulants are all k-subsets, each once", "statement": "compute_elementary_contractions_half_cumulant(ops, max_cu)[k] lists every k-element set of (operator, position) legs exactly once, each in increasing order, for every 2 <= k <= max_cu.", "quantifier": "every list of operators, every level", "why_tests_cant": "binomially many subsets produced through integer partitions, multiset permutations, combinations and products", "anchors": ["dsrg_generator/sqop_contraction.py:compute_elementary_contractions_half_cumulant"]}
{"id": "C25", "title": "Cumulant contractions are exactly the multi-operator ones", "statement": "compute_elementary_contractions_cumulant lists, for each level 2..max_cu, every choice of that many active-containing creation and annihilation operators that do not all belong to one operator, exactly once, filed under the tuple of the operators they come from.", "quantifier": "every list of operators, every level", "why_tests_cant": "combinatorially many cases", "anchors": ["dsrg_generator/sqop_contraction.py:compute_elementary_contractions_cumulant"]}
{"id": "C26", "title": "Codes of elementary contractions round-trip", "statement": "For every non-empty sequence of categories with non-empty lists, decode(encode(category, i)) is the i-th contraction of the category, find_category(encode(category, i)) is the category, category_range is exactly the set of codes of the category, and codes 0..size-1 are hit exactly once.", "quantifier": "every dictionary of categories", "why_tests_cant": "unbounded dictionaries; bisect boundaries", "anchors": ["dsrg_generator/sqop_contraction.py:ElementaryContractionCategorized.encode", "dsrg_generator/sqop_contraction.py:ElementaryContractionCategorized.decode", "dsrg_generator/sqop_contraction.py:ElementaryContractionCategorized.find_category"]}
{"id": "C27", "title": "Compatibility means sharing no operator", "statement": "Two elementary contractions are recorded as compatible (symmetrically, and never with themselves) exactly when they share no creation operator and no annihilation operator.", "quantifier": "every list of elementary contractions", "why_tests_cant": "unbounded lists", "anchors": ["dsrg_generator/sqop_contraction.py:compute_compatible_elementary_contractions_list", "dsrg_generator/sqop_contraction.py:ElementaryContractionCategorized.compatible_elementary_contractions", "dsrg_generator/Tensor.py:Tensor.any_overlapped_indices"]}
{"id": "C28", "title": "General backtracking enumerates every admissible composite contraction exactly once", "statement": "composite_contractions_backtrack yields exactly the non-empty sets of pairwise compatible elementary contractions whose number of contracted operators lies in the requested window, each set exactly once, whatever element set.pop() happens to return at every step, and restores the set it was given.", "quantifier": "every compatibility relation, every window, every pop order", "why_tests_cant": "exponentially many sets and arbitrary hash orders", "anchors": ["dsrg_generator/sqop_contraction.py:composite_contractions_backtrack"]}
{"id": "C29", "title": "Category-wise backtracking enumerates every selection exactly once", "statement": "composite_contractions(target) yields exactly the sets of pairwise compatible elementary contractions having the requested number from every requested category and none from other categories, each exactly once, whatever element set.pop() returns, and leaves target unchanged.", "quantifier": "every categorised list, every target, every pop order", "why_tests_cant": "exponentially many sets and arbitrary hash orders", "anchors": ["dsrg_generator/sqop_contraction.py:ElementaryContractionCategorized.composite_contractions_backtrack"]}
{"id": "C30", "title": "Connected category search is sound", "statement": "Every multiset of categories produced by contracted_operator_backtrack_macro touches all operators, is connected, contains at least one pair contraction, uses no more creation/annihilation operators than each operator has, has a number of contracted operators inside the requested window, and no multiset is produced twice.", "quantifier": "every category list and operator sizes", "why_tests_cant": "unbounded search trees", "anchors": ["dsrg_generator/sqop_contraction.py:contracted_operator_backtrack_macro", "dsrg_generator/sqop_contraction.py:_prune_available_contracted_operator"]}
{"id": "C31", "title": "Connected category search is complete", "statement": "Every multiset of available categories that touches all operators, is connected, contains a pair contraction, respects the operator sizes and lies in the window is produced by contracted_operator_backtrack_macro. (True for at most three operators; violated from four operators on.)", "quantifier": "every category list and operator sizes", "why_tests_cant": "the missing cases need at least four operators and a particular traversal order", "anchors": ["dsrg_generator/sqop_contraction.py:contracted_operator_backtrack_macro"]}
{"id": "C32", "title": "Connected mode equals the connected part of general mode", "statement": "For at most three operators, or when all elementary contractions involve one common operator, the composite contractions found by the connected (commutator) search are exactly those of the general search that connect all operators and contain a pair contraction; for two operators these are exactly the general ones that are not purely higher cumulants.", "quantifier": "every list of two or three operators, every level and window", "why_tests_cant": "two different algorithms over exponentially many cases", "anchors": ["dsrg_generator/sqop_contraction.py:compute_operator_contractions_connected", "dsrg_generator/sqop_contraction.py:compute_operator_contractions_general"]}
{"id": "C33", "title": "The sign of a contraction does not depend on the order of its factors", "statement": "process_composite_contractions returns the same sign whatever order the set of elementary contractions is iterated in; the sign is the parity of moving the operators from the product order to (contractions, open creations increasing, open annihilations decreasing).", "quantifier": "every composite contraction, every iteration order", "why_tests_cant": "k! orders; parity of unbounded permutations", "anchors": ["dsrg_generator/sqop_contraction.py:process_composite_contractions", "dsrg_generator/sqop_contraction.py:process_composite_categorized"]}
{"id": "C34", "title": "A contraction neither loses nor duplicates operators", "statement": "In every result (sign, densities, operator) each creation and annihilation operator of the input occurs exactly once, either in one density or in the remaining operator; the remaining operator is sorted, and its size lies between min_n_open and max_n_open.", "quantifier": "every operator list and window", "why_tests_cant": "unbounded operator lists", "anchors": ["dsrg_generator/sqop_contraction.py:process_composite_contractions", "dsrg_generator/sqop_contraction.py:compute_operator_contractions_general"]}
{"id": "C35", "title": "Dropped contractions cancel in a commutator", "statement": "For two operators at least one of which has an even number of creation plus annihilation operators, the uncontracted term and every purely higher-cumulant contraction appear in both products AB and BA with the same operator and, up to an antisymmetric rearrangement of the labels of each density, the same signed densities, so omitting them (for_commutator=True) does not change the value of AB - BA.", "quantifier": "every pair of operators, every purely cumulant contraction", "why_tests_cant": "parity argument over unbounded strings", "anchors": ["dsrg_generator/sqop_contraction.py:compute_operator_contractions_connected", "dsrg_generator/phys_op_contraction.py:single_commutator"]}
{"id": "C36", "title": "Recursion limit suffices for the search depth", "statement": "The general backtracking never exceeds the recursion limit the function itself sets. (Violated: for n > 1000 elementary contractions the limit is set to n, but exploring the all-excluded branch needs n + 1 nested calls.)", "quantifier": "every number of elementary contractions", "why_tests_cant": "needs more than 1000 elementary contractions", "anchors": ["dsrg_generator/sqop_contraction.py:compute_operator_contractions_general"]}
{"id": "C37", "title": "A Term is accepted exactly when every summation label is paired", "statement": "Term(...) succeeds exactly when all tensors have the operator's index kind, every label that is not diagonal in any factor occurs exactly twice in total and every diagonal label occurs an even number of times; the tensors are then held sorted.", "quantifier": "every list of tensors and operator", "why_tests_cant": "unbounded sizes", "anchors": ["dsrg_generator/Term.py:Term.__init__"]}
{"id": "C38", "title": "Operator factories build valid terms for every rank", "statement": "hamiltonian_operator(k, start) and cluster_operator(k, start, ...) succeed for every k and start, use exactly the labels start..start+2k-1 (start..start+k-1 per space), and have coefficient 1/(k!)^2 (times the scale factor).", "quantifier": "every rank k and start", "why_tests_cant": "k unbounded", "anchors": ["dsrg_generator/Term.py:hamiltonian_operator", "dsrg_generator/Term.py:cluster_operator"]}
{"id": "C39", "title": "Generated labels are fresh", "statement": "The labels produced from a term's next-index counters never occur in the term, and successive labels never repeat.", "quantifier": "every term, every sequence of requests", "why_tests_cant": "history of unbounded length", "anchors": ["dsrg_generator/Term.py:Term._generate_next_index", "dsrg_generator/Term.py:Term.__init__"]}
{"id": "C40", "title": "simplify preserves the value of a term", "statement": "For every interpretation of the tensors that respects their meaning (densities vanish outside their spaces, core density is the delta, all-active amplitudes vanish), simplify leaves the value of the term unchanged. (True when no label of a delta is shared with another delta or a cumulant, which is what contraction produces; violated by chained deltas.)", "quantifier": "every term, every interpretation, every assignment of orbitals", "why_tests_cant": "values range over all orbital spaces and tensors", "anchors": ["dsrg_generator/Term.py:Term.simplify", "dsrg_generator/Term.py:Term._downgrade_cumulant_indices", "dsrg_generator/Term.py:Term._remove_kronecker_delta"]}
{"id": "C41", "title": "Minimal relabelling is a space-preserving bijection onto 0..n-1", "statement": "_minimal_indices maps the labels of a term one-to-one onto labels of the same space whose numbers are exactly 0..n-1 for each space.", "quantifier": "every term", "why_tests_cant": "unbounded label sets", "anchors": ["dsrg_generator/Term.py:Term._minimal_indices"]}
{"id": "C42", "title": "canonicalize_simple preserves the value and yields sorted minimal labels", "statement": "The term returned by canonicalize_simple has the same value as the simplified term for every interpretation with antisymmetric tensors, has minimal labels and every index list sorted.", "quantifier": "every term and interpretation", "why_tests_cant": "arbitrary tensors", "anchors": ["dsrg_generator/Term.py:Term.canonicalize_simple", "dsrg_generator/Term.py:Term._relabel_indices"]}
{"id": "C43", "title": "canonicalize_sympy preserves the value", "statement": "Provided SymPy's canonicalize returns a permutation in the double coset of its input (its documented contract), the term rebuilt from its answer has the same value as the simplified term.", "quantifier": "every term and interpretation, every answer allowed by SymPy's contract", "why_tests_cant": "arbitrary tensors and double cosets", "anchors": ["dsrg_generator/Term.py:Term.canonicalize_sympy", "dsrg_generator/IndicesPair.py:IndicesPair.asym_bsgs"]}
{"id": "C44", "title": "Expanding composite labels preserves the value", "statement": "Summing the terms of expand_composite_indices(False) gives the value of the original term; with single_ref=True it gives the value with the operator's labels restricted to core and virtual orbitals; make_ddca keeps exactly the blocks with at most max_core core and max_virt virtual labels. (Violated for operators with diagonal labels.)", "quantifier": "every term and interpretation", "why_tests_cant": "3^n blocks, arbitrary tensors", "anchors": ["dsrg_generator/Term.py:Term.expand_composite_indices", "dsrg_generator/Term.py:Term.make_ddca"]}
{"id": "C45", "title": "perm_partition_open partitions the open labels", "statement": "For a term without diagonal labels, the two partitions returned list every open creation (annihilation) label exactly once, labels in one block come from one tensor and one space, and labels from one tensor and one space share a block.", "quantifier": "every term", "why_tests_cant": "unbounded terms", "anchors": ["dsrg_generator/Term.py:Term.perm_partition_open"]}
{"id": "C46", "title": "Generated ambit code computes the operator's amplitudes", "statement": "Executing the statements written by Term.ambit() (with init_temp, as print_terms_ambit calls it) adds to the target tensor C an amount whose sum over all labels, times the operator strings, is the operator represented by the term times the number of permutations of its labels among labels of the same spin (n_cre! n_ann! for one spin); if no factor holds labels of one side of the operator on both of its sides, what is added is antisymmetric. Other tensors but temp are unchanged.", "quantifier": "every term without a label that is both created and annihilated, every tensor values", "why_tests_cant": "arbitrary tensors and factorially many permutations", "anchors": ["dsrg_generator/Term.py:Term.ambit"]}
{"id": "C47", "title": "All contraction paths are explored and the cheapest is reported", "statement": "contraction_paths yields n!(n-1)!/2^(n-1) paths, each ending with the same open labels, and optimal_contraction_cost returns a cost no larger than the cost of any path, attained by the path it returns.", "quantifier": "every term", "why_tests_cant": "factorially many paths", "anchors": ["dsrg_generator/Term.py:Term.contraction_paths", "dsrg_generator/Term.py:Term.optimal_contraction_cost", "dsrg_generator/Term.py:Term._contraction_cost"]}
{"id": "C48", "title": "hash_term identifies terms up to coefficient", "statement": "Two terms with ordinary tensor names have the same hash_term() exactly when they have the same list of tensors (names and labels) and the same operator.", "quantifier": "every pair of terms", "why_tests_cant": "string injectivity over unbounded terms", "anchors": ["dsrg_generator/Term.py:Term.hash_term"]}
{"id": "C49", "title": "combine_terms adds coefficients of equal terms", "statement": "combine_terms returns, in increasing order, one term for every distinct term of the input whose coefficients do not sum to (numerically) zero, with the sum of the input coefficients, and nothing else; the value of the sum is preserved up to terms below the threshold.", "quantifier": "every list of terms", "why_tests_cant": "unbounded lists", "anchors": ["dsrg_generator/phys_op_contraction.py:combine_terms"]}
{"id": "C50", "title": "Results do not depend on scheduling", "statement": "combine_terms (and so contract_terms with any number of processes) returns the same list for every order in which worker results arrive (exact arithmetic).", "quantifier": "every permutation of the intermediate results, every n_process", "why_tests_cant": "n! arrival orders", "anchors": ["dsrg_generator/phys_op_contraction.py:combine_terms", "dsrg_generator/phys_op_contraction.py:canonicalize_contractions_batch"]}
{"id": "C51", "title": "Batching does not change the result", "statement": "Combining intermediate batches before the final combine_terms gives the same list as combining everything at once, in exact arithmetic and when no partial sum is non-zero but below the 1e-15 threshold.", "quantifier": "every way of splitting the contractions into batches", "why_tests_cant": "all splittings", "anchors": ["dsrg_generator/phys_op_contraction.py:contract_terms"]}
{"id": "C52", "title": "combine_terms is idempotent and does not modify its inputs", "statement": "Combining an already combined list returns it unchanged; calling combine_terms twice on the same list returns the same result. (The second part is violated: the coefficients of the input terms are overwritten, so a second call double counts.)", "quantifier": "every list of terms", "why_tests_cant": "aliasing/history property", "anchors": ["dsrg_generator/phys_op_contraction.py:combine_terms"]}
{"id": "C53", "title": "The commutator is antisymmetric and bilinear in the scale", "statement": "single_commutator(A, B, s) and single_commutator(B, A, s) give the same terms with opposite coefficients, and scaling s scales every coefficient (exact arithmetic).", "quantifier": "every pair of terms and scale", "why_tests_cant": "arbitrary operators", "anchors": ["dsrg_generator/phys_op_contraction.py:single_commutator", "dsrg_generator/phys_op_contraction.py:contract_terms"]}
{"id": "C54", "title": "Open-index limits are respected by contract_terms", "statement": "Every term returned by contract_terms has between min_n_open and max_n_open open indices. (Violated when fewer than two operators are non-empty: the product is returned unfiltered.)", "quantifier": "every list of terms and limits", "why_tests_cant": "unbounded inputs", "anchors": ["dsrg_generator/phys_op_contraction.py:contract_terms"]}
{"id": "C55", "title": "Nested commutator labels never collide", "statement": "In bch_cc_rsc the labels of the amplitudes at level i are disjoint from the minimal labels of every term of the previous level; in nested_commutator_cc the labels of all factors of a product are pairwise disjoint.", "quantifier": "every nesting level, all cluster ranks", "why_tests_cant": "unbounded nesting", "anchors": ["dsrg_generator/phys_op_contraction.py:bch_cc_rsc", "dsrg_generator/phys_op_contraction.py:nested_commutator_cc", "dsrg_generator/phys_op_contraction.py:cluster_operators"]}
{"id": "C56", "title": "Symbolic nesting builds the k-fold commutator", "statement": "sympy_nested_commutator_recursive(k, A, B) is [[...[A,B],...],B] with k copies of B. (True for k >= 1; for k = 0 the code returns [A,B] instead of A.)", "quantifier": "every k", "why_tests_cant": "k unbounded", "anchors": ["dsrg_generator/phys_op_contraction.py:sympy_nested_commutator_recursive"]}
{"id": "C57", "title": "bch_cc_rsc starts from the full Hamiltonian", "statement": "With single_reference=False the level-0 result contains the active-orbital blocks of the Hamiltonian. (Violated: the Hamiltonian is always expanded with single_ref=True.)", "quantifier": "every call with single_reference=False", "why_tests_cant": "requires checking all blocks", "anchors": ["dsrg_generator/phys_op_contraction.py:bch_cc_rsc"]}
{"id": "C58", "title": "categorize_contractions is a partition of the terms", "statement": "Every input term appears in exactly one bucket, the one keyed by its own space string and permutation string, as often as in the input, and every bucket is sorted and non-empty.", "quantifier": "every list of terms", "why_tests_cant": "unbounded lists", "anchors": ["dsrg_generator/phys_op_contraction.py:categorize_contractions"]}
{"id": "C59", "title": "Spin integration of a term preserves the value", "statement": "The terms produced by generate_spin_cases_naive (before canonicalisation) are exactly the consistent, spin-conserving spin labelings of the term, each once, and their values sum to the value of the spin-orbital term when every tensor vanishes on spin-violating labels.", "quantifier": "every term and interpretation", "why_tests_cant": "2^n labelings", "anchors": ["dsrg_generator/Term.py:Term.generate_spin_cases_naive"]}
{"id": "C60", "title": "Generated C++ declares every variable before use", "statement": "In the main function written by save_terms_ambit_functions every tensor is a parameter or is declared before it is used, and every block function uses only its parameters and its own local tensor. (Violated with add_t_dagger when no scalar block is present and destroy_h has no effect: temp is never declared; and for operators that change the number of particles.)", "quantifier": "every list of terms and flags", "why_tests_cant": "depends on combinations of blocks", "anchors": ["dsrg_generator/write_forte_functions.py:save_terms_ambit_functions"]}
{"id": "C61", "title": "simplify works on every valid term", "statement": "simplify (and so canonicalize) returns normally on every valid term whose densities are contractible. (Violated: a term without tensors, or made of deltas only, raises ValueError.)", "quantifier": "every valid term", "why_tests_cant": "corner cases", "anchors": ["dsrg_generator/Term.py:Term.simplify", "dsrg_generator/Term.py:Term._replace_tensors_indices"]}
{"id": "C62", "title": "make_excitation keeps exactly the excitation part", "statement": "make_excitation returns zero exactly when a creation label cannot be a particle or an annihilation label cannot be a hole (or all labels are active), and otherwise the term with its operator labels restricted to particle/hole orbitals.", "quantifier": "every term", "why_tests_cant": "arbitrary operators", "anchors": ["dsrg_generator/Term.py:Term.make_excitation", "dsrg_generator/SQOperator.py:SecondQuantizedOperator.is_possible_excitation"]}
{"id": "C63", "title": "Coefficient formatting is exact for ordinary fractions", "statement": "format_coeff prints the fraction whose value is the coefficient for every coefficient that is a fraction with denominator up to 10^9; the ambit form is a parenthesised quotient exactly when the value is not an integer.", "quantifier": "every rational with small denominator", "why_tests_cant": "infinitely many values", "anchors": ["dsrg_generator/Term.py:Term.format_coeff"]}
{"id": "C64", "title": "ChangeDir restores the working directory", "statement": "After leaving the with-block, normally or by exception, the working directory is the one at construction time; inside it is the requested subdirectory; a failure other than 'already exists' raises ValueError and does not change directory.", "quantifier": "every prior state of the directory, every body outcome", "why_tests_cant": "all exits of the block", "anchors": ["dsrg_generator/helper/file_utils.py:ChangeDir"]}
{"id": "C65", "title": "Comparison of terms is a total order", "statement": "For terms with labels of one class, exactly one of x<y, y<x and 'same operator, tensors and coefficient' holds, < is transitive, <=, >, >= are derived from it, and == agrees with it; terms with labels of different classes raise TypeError. (The part about == is violated: == compares coefficients with a relative tolerance, so terms can be equal and less, and == is not transitive.)", "quantifier": "all pairs and triples of terms", "why_tests_cant": "sorting in combine_terms and the final listing rely on it for every pair of terms that can ever occur", "anchors": ["dsrg_generator/Term.py:Term.__eq__", "dsrg_generator/Term.py:Term.__ne__", "dsrg_generator/Term.py:Term.__lt__", "dsrg_generator/Term.py:Term.__le__", "dsrg_generator/Term.py:Term.__gt__", "dsrg_generator/Term.py:Term.__ge__", "dsrg_generator/Term.py:Term.is_equal_weak"]}
{"id": "C66", "title": "Contracted terms add up to the sum over all contractions", "statement": "The terms returned by contract_terms(for_commutator=False) add up to the sum, over every set of elementary contractions without common operators that leaves an allowed number of operators, of coefficient, sign, tensors, densities and remaining operator; with for_commutator=True the sum is over those sets that connect all operators and contain a pair contraction; single_commutator returns terms that add up to the difference of that sum for AB and for BA, in both modes. This includes the canonicalisation by SymPy, the expansion of hole densities, the batches and the worker processes.", "quantifier": "every product of terms, every limit, every interpretation of tensors and densities, every schedule", "why_tests_cant": "exponentially many contractions, arbitrary tensors, every schedule", "anchors": ["dsrg_generator/phys_op_contraction.py:contract_terms", "dsrg_generator/phys_op_contraction.py:single_commutator", "dsrg_generator/phys_op_contraction.py:canonicalize_contractions_batch"]}
{"id": "C67", "title": "make_one_body_diagonal keeps exactly the diagonal blocks", "statement": "The terms yielded by make_one_body_diagonal add up to the part of a one-body term in which the created and the annihilated orbital lie in the same elementary space (core, active or virtual) and have the same spin; with single_ref the active block is left out. Operators that are not one-body raise ValueError. (Violated when a density of two or more bodies shares a composite label with the operator.)", "quantifier": "every one-body term and every interpretation of its tensors", "why_tests_cant": "arbitrary tensors and labels; value semantics over all interpretations", "anchors": ["dsrg_generator/Term.py:Term.make_one_body_diagonal"]}
{"id": "C68", "title": "gradient_t is the derivative with respect to the amplitudes", "statement": "For a scalar term, the terms yielded by gradient_t add up to the first-order change of the term under a change of its cluster amplitudes in any direction (the operator a^l_u marking the direction of the amplitude t^u_l); one term is yielded for each amplitude.", "quantifier": "every scalar term, every interpretation and every direction", "why_tests_cant": "a derivative identity over all interpretations", "anchors": ["dsrg_generator/Term.py:Term.gradient_t"]}
{"id": "C69", "title": "Printed programs and generated functions compute the sum of the terms", "statement": "For terms whose operators conserve the number of particles: executing the program of print_terms_ambit, or calling the function written by save_terms_ambit_functions without add_t_dagger, makes every target tensor Cn hold (the function) or gain (the program) the sum of the terms with n creation operators, each times the number of permutations of its labels; it is antisymmetric if terms with the same open spaces have the same operator; other tensors are unchanged, although all terms share one local tensor temp.", "quantifier": "every list of terms, all tensor values, all previous contents of the targets", "why_tests_cant": "arbitrary lists of terms sharing one intermediate tensor; arbitrary tensors", "anchors": ["dsrg_generator/phys_op_contraction.py:print_terms_ambit", "dsrg_generator/write_forte_functions.py:save_terms_ambit_functions", "dsrg_generator/write_forte_functions.py:save_terms_blocks_ambit_function"]}
{"id": "C70", "title": "The argument factor scales the result of a generated function", "statement": "The function written by save_terms_ambit_functions takes a factor, by which its result is scaled. (Violated: the statements that scale the targets are composed but never written, so the factor has no effect.)", "quantifier": "every list of terms, flags, tensors and factors", "why_tests_cant": "must hold for every generated function", "anchors": ["dsrg_generator/write_forte_functions.py:save_terms_ambit_functions"]}
{"id": "C71", "title": "add_t_dagger adds the transposed tensors", "statement": "With add_t_dagger the generated function returns the scalar doubled and every other target plus its transpose (annihilation and creation labels exchanged), on general orbitals, so that the result is symmetric; with destroy_h the tensors Hn may be overwritten, and nothing else changes.", "quantifier": "every list of terms, both values of destroy_h, all tensors", "why_tests_cant": "relates two generated programs on all inputs", "anchors": ["dsrg_generator/write_forte_functions.py:save_terms_ambit_functions"]}
{"id": "C72", "title": "When a function can be generated", "statement": "save_terms_ambit_functions succeeds for terms whose factors are called H1-H9, T1-T9 or C0-C9 and have at most nine creation operators, and raises KeyError otherwise. (So contractions with densities, which print_terms_ambit can print, cannot be saved.)", "quantifier": "every list of number-conserving terms with balanced factors", "why_tests_cant": "every name and every rank", "anchors": ["dsrg_generator/write_forte_functions.py:save_terms_ambit_functions", "dsrg_generator/write_forte_functions.py:save_terms_blocks_ambit_function"]}
{"id": "C73", "title": "Programs for operators that change the number of particles", "statement": "print_terms_ambit writes the target of every term, also when the operators of the terms change the number of particles. (Violated: a term that creates two particles and one that annihilates two share a bucket, and only the last one's target is written.)", "quantifier": "every list of terms", "why_tests_cant": "depends on combinations of terms", "anchors": ["dsrg_generator/phys_op_contraction.py:print_terms_ambit", "dsrg_generator/phys_op_contraction.py:categorize_contractions"]}
{"id": "C74", "title": "The terms of nested_commutator_cc add up to the nested commutator", "statement": "nested_commutator_cc(n, levels, ...) returns terms whose sum is 1/n! times [[..[H1+H2, A], ..], A] with n amplitudes A = sum of T_k (minus the sum of their conjugates when unitary): every product of operators in the expansion of the nested commutator contributes, with its integer coefficient, the sum of all contractions allowed by max_cu, max_n_open and min_n_open (with for_commutator=True, of those that connect all its operators and contain a pair contraction). No product is lost or counted twice, and the result does not depend on how SymPy orders or groups the expansion.", "quantifier": "all nested levels, all lists of cluster levels, unitary or not, single reference or not, all limits, all orders of the expansion, all numbers of processes, all values of the tensors and operators with the assumed symmetries", "why_tests_cant": "The number of products grows exponentially with the level and every one has many contractions; tests compare a few low levels with stored output.", "anchors": ["dsrg_generator/phys_op_contraction.py:nested_commutator_cc", "dsrg_generator/phys_op_contraction.py:sympy_nested_commutator_recursive", "dsrg_generator/phys_op_contraction.py:contract_terms", "dsrg_generator/phys_op_contraction.py:combine_terms"]}
{"id": "C75", "title": "Every level of bch_cc_rsc is the commutator of the level before with the amplitudes", "statement": "For every level k >= 1, the terms bch_cc_rsc returns for level k add up to 1/k times the sum of the commutators of all terms returned for level k-1 with all amplitudes (and, when unitary, minus their conjugates), where a commutator is the difference of all allowed contractions of the two products and is zero when one of the two terms has no operator; the limits used are those given for level k. The coefficients are assumed to stay above the threshold 1e-15 at which combine_terms drops terms: 4*(K!^2)^n*n! <= 10^15 for n levels and amplitudes of at most K bodies.", "quantifier": "all numbers of levels, all lists of cluster levels, all limits per level, unitary or not, single reference or not, commutator mode or not, all numbers of processes, all values of the tensors and operators with the assumed symmetries", "why_tests_cant": "The terms of one level are inputs of the next, so a mistake in one level shows only in deeper levels, which are too large to check by hand.", "anchors": ["dsrg_generator/phys_op_contraction.py:bch_cc_rsc", "dsrg_generator/phys_op_contraction.py:single_commutator", "dsrg_generator/phys_op_contraction.py:cluster_operators", "dsrg_generator/phys_op_contraction.py:combine_terms"]}
{"id": "C76", "title": "Contractions and commutators of library operators end without an exception", "statement": "contract_terms, single_commutator, linear_commutator, recursive_single_commutator, bch_cc_rsc and nested_commutator_cc raise no exception and return a result when they are given operators built with the library (amplitudes and Hamiltonians of at least one body, blocks of the Hamiltonian, and terms returned by earlier contractions and commutators) whose labels do not clash, with at least one worker process. In particular every term of every contraction passes the constructors' checks, tensor canonicalization by SymPy never answers 0, and simplification and canonicalization find every label they look for.", "quantifier": "all operators with any number of bodies, all limits and options, all numbers of processes from 1 up, all choices made by SymPy that meet its contract, all iteration orders of sets, all orders of delivery by the workers", "why_tests_cant": "The exceptions are raised deep inside simplification and canonicalization for particular shapes of terms; there are infinitely many products, and tests meet only a few shapes.", "anchors": ["dsrg_generator/phys_op_contraction.py:contract_terms", "dsrg_generator/phys_op_contraction.py:single_commutator", "dsrg_generator/phys_op_contraction.py:bch_cc_rsc", "dsrg_generator/phys_op_contraction.py:nested_commutator_cc", "dsrg_generator/Term.py:canonicalize_sympy", "dsrg_generator/Term.py:simplify"]}
{"id": "C77", "title": "contract_terms returns the operator product of its terms (generalized Wick theorem)", "statement": "When creation and annihilation operators obey the anticommutation relations and every operator string stands for their product, normal ordered with respect to a reference with the densities and cumulants that appear in the terms, the terms returned by contract_terms([t1, ..., tn]) add up, as operators, to scale_factor * t1 * t2 * ... * tn. This holds when nothing is cut off: min_n_open <= 0, max_n_open is at least the number of operators of the product, and cumulants above max_cu vanish for the reference. It covers single determinants and multireference states.", "quantifier": "all lists of terms without common labels, all numbers of bodies, all rings and algebras, all fermion operators, all references given by any antisymmetric cumulants, all orders of sets, all numbers of processes, all choices of SymPy", "why_tests_cant": "The statement is about infinitely many products, orbital spaces and references; the sign and the completeness of the contractions have to be right for all of them at once.", "anchors": ["dsrg_generator/phys_op_contraction.py:contract_terms", "dsrg_generator/sqop_contraction.py:compute_operator_contractions", "dsrg_generator/Term.py:canonicalize_sympy", "dsrg_generator/phys_op_contraction.py:combine_terms"]}
{"id": "C78", "title": "single_commutator returns the commutator of two operators", "statement": "Under the assumptions of C77 the terms returned by single_commutator(a, b) add up, as operators, to scale_factor * (a*b - b*a), with for_commutator True or False, also when one of the terms has no operator, and already when max_n_open is two less than the number of operators of the product (the uncontracted products cancel).", "quantifier": "all pairs of terms without common labels of which one has an even number of operators, all rings, algebras, fermion operators and references, all options that cut off nothing", "why_tests_cant": "The commutator mode leaves out contractions on the ground that they cancel; that they do cancel has to be shown for all products.", "anchors": ["dsrg_generator/phys_op_contraction.py:single_commutator", "dsrg_generator/sqop_contraction.py:compute_operator_contractions"]}
{"id": "C79", "title": "The levels of bch_cc_rsc are the nested operator commutators", "statement": "Under the assumptions of C77 the terms that bch_cc_rsc returns for level n add up, as operators, to 1/n! [...[[H, A], A]..., A] with n commutators, where H is the one- and two-body Hamiltonian over core and virtual orbitals and A = sum of T_k, or of T_k - T_k^dagger in the unitary formalism, with amplitudes from hole to particle orbitals (core to virtual for a single-determinant reference); all levels together add up to the expansion of exp(-A) H exp(A) up to the last level. The limits of the levels must cut off nothing but uncontracted products: at level n, max_n_open + 2 is at least the number of operators of the product of a term of the level before and an amplitude.", "quantifier": "all lists of numbers of bodies, all numbers of levels, all limits that are wide enough, unitary or not, single- or multireference labels, all rings, algebras, fermion operators and references, all orders of sets, all numbers of processes", "why_tests_cant": "Each level is computed from the terms of the level before; an error in a sign, a label or a coefficient anywhere would show only for some inputs, while the statement is for every level and every reference.", "anchors": ["dsrg_generator/phys_op_contraction.py:bch_cc_rsc", "dsrg_generator/phys_op_contraction.py:cluster_operators", "dsrg_generator/phys_op_contraction.py:single_commutator"]}
{"id": "C80", "title": "nested_commutator_cc returns the nested operator commutator", "statement": "Under the assumptions of C77 the terms returned by nested_commutator_cc(n, levels) add up, as operators, to 1/n! [...[[H, A], A]..., A] with n >= 1 commutators, where H is the one- and two-body Hamiltonian and A = sum of T_k, or of T_k - T_k^dagger in the unitary formalism, when max_n_open is at least 4 + 2 n max(levels), min_n_open <= 0 and cumulants above max_cu vanish. This holds for for_commutator=False and for for_commutator=True: leaving out contractions that do not connect all operators does not change the sum.", "quantifier": "all numbers of commutators, all lists of numbers of bodies, unitary or not, single- or multireference labels, all rings, algebras, fermion operators and references", "why_tests_cant": "The nested commutator is expanded symbolically and each product is contracted separately; agreement with the operator identity concerns all products, references and levels.", "anchors": ["dsrg_generator/phys_op_contraction.py:nested_commutator_cc", "dsrg_generator/phys_op_contraction.py:sympy_nested_commutator_recursive", "dsrg_generator/phys_op_contraction.py:contract_terms"]}
{"id": "C81", "title": "linear_commutator and recursive_single_commutator return operator commutators", "statement": "Under the assumptions of C78 the terms returned by linear_commutator(lefts, rights, scale) add up, as operators, to scale [L, R], where L and R are the sums of the left and of the right terms; linear_commutator_amp gives scale [L, A] with A = sum of T_k, or of T_k - T_k^dagger in the unitary formalism, when start exceeds the numbers of the labels of the left terms. recursive_single_commutator([t0, t1, ..., tk]) returns for each level i terms that add up to [...[[t0, t1], t2]..., ti], when the numbers of the labels of each term exceed those of t0 and the number of labels of the terms before it. The limits of open labels and cumulants must cut off nothing but uncontracted products.", "quantifier": "all lists of library terms, scale factors, levels, limits that are wide enough, for_commutator, expand_hole and hermitian_tensor settings, all rings, algebras, fermion operators and references", "why_tests_cant": "The result of each level is combined and fed into the next one under fresh labels; agreement with the operator identity concerns all terms, numbers of levels and references.", "anchors": ["dsrg_generator/phys_op_contraction.py:linear_commutator", "dsrg_generator/phys_op_contraction.py:linear_commutator_amp", "dsrg_generator/phys_op_contraction.py:recursive_single_commutator"]}
{"id": "C82", "title": "generate_singlet_adaptation preserves the value of a spin-integrated term", "statement": "For a closed-shell system, where every spin-dependent tensor and operator is determined by its values for alpha orbitals, X(u,l) = sum over permutations pi of sgn(pi) prod_i delta(spin u_i, spin l_pi(i)) X(u, l_pi), the spin-adapted terms produced by generate_singlet_adaptation add up to the spin-integrated term they were produced from, for both settings of alpha_major. A term of another label type raises TypeError.", "quantifier": "all spin-integrated terms without diagonal labels, both settings of alpha_major, all orders of set iteration, all closed-shell orbital sets and tensor values with the stated symmetry", "why_tests_cant": "Every factor is expanded into signed permutations of its alpha and its beta labels, beta labels are renamed, and each result is canonicalised; a wrong sign or count shows only for some combination of spins, tensors and orderings.", "anchors": ["dsrg_generator/Term.py:generate_singlet_adaptation", "dsrg_generator/IndicesPair.py:generate_singlet_adaptation", "dsrg_generator/SQOperator.py:permute_indices", "dsrg_generator/SQOperator.py:n_multiset_permutation"]}
{"id": "C83", "title": "The zeroth-order Hamiltonians are the operators they are named after", "statement": "diagonal_fock_operator, dyall_hamiltonian and fink_hamiltonian return without an exception. The terms of diagonal_fock_operator add up to the blocks of the one-body Hamiltonian in which both orbitals are core, both active or both virtual. dyall_hamiltonian adds the two-body Hamiltonian of the active orbitals, with the factor 1/4. fink_hamiltonian adds 1/4 of the two-body Hamiltonian restricted to orbitals of which as many are core, active and virtual on both sides. With single_reference, active orbitals are left out.", "quantifier": "both settings of single_reference, all orders of set iteration, all orbital sets, tensor values and operators with the stated symmetry", "why_tests_cant": "The equality is between operators, for every set of orbitals and every value of the integrals; a test compares a printed list of terms. Which terms are listed, and with which labels and signs, depends on set iteration and canonicalisation.", "anchors": ["dsrg_generator/Term.py:diagonal_fock_operator", "dsrg_generator/Term.py:dyall_hamiltonian", "dsrg_generator/Term.py:fink_hamiltonian"]}
{"id": "C84", "title": "The LaTeX printed for a term is unambiguous and means the term", "statement": "Term.latex prints a formula (a fraction, antisymmetrizers P(ij/k), the tensors, the second-quantized operator) whose meaning, read as a mathematical expression, is the term: the coefficient is divided by exactly the number of signed orders of the operator's labels that the P stand for. The text can be read in only one way, so two terms printed alike have the same coefficient, tensors and operator. print_terms_latex prints every term exactly once, one align environment for each combination of spaces of the open labels, with the rows of an environment separated by \\\\. The last part is violated: terms of one environment with different P end up on one row.", "quantifier": "all terms without diagonal labels with tensor names free of '^' and ' ' and different from 'a', all option flags, all coefficients whose denominator times the factorials of the numbers of open labels is at most 10^9, all orbital sets and tensor values", "why_tests_cant": "That no two terms share a text and that the permutation format has the right value must hold for every term; tests compare a few strings.", "anchors": ["dsrg_generator/Term.py:latex", "dsrg_generator/Indices.py:latex_permute_format", "dsrg_generator/SQOperator.py:latex_permute_format", "dsrg_generator/phys_op_contraction.py:print_terms_latex"]}
{"id": "C85", "title": "canonicalize brings terms that differ in notation to one form", "statement": "If one term is obtained from another by renaming summation labels within their spaces, reordering tensors, exchanging upper or lower labels of an antisymmetric tensor or of the operator with the sign, or (hermitian) exchanging the upper and lower labels of a tensor, then canonicalize (canonicalize_sympy) returns equal terms for both, with equal coefficients, whatever the order of set iteration. Conversely the result differs from the given term in notation only, unless it is zero, so terms that get the same result are the same up to notation. canonicalize_simple does not have the first property.", "quantifier": "all terms with antisymmetric labels, as many upper as lower labels per factor and one kind per tensor name, all chains of changes of notation, all flags and set orders, all functions in place of SymPy's canonicalize that meet its contract and answer with a canonical form", "why_tests_cant": "combine_terms relies on it for every term: two equal contributions that are not recognised stay apart silently. The number of notations of one term grows factorially.", "anchors": ["dsrg_generator/Term.py:canonicalize_sympy", "dsrg_generator/Term.py:canonicalize_simple", "dsrg_generator/Term.py:simplify", "dsrg_generator/phys_op_contraction.py:combine_terms"]}
{"id": "C86", "title": "Like terms are collected", "statement": "In the list returned by contract_terms, single_commutator or linear_commutator, in every list returned by recursive_single_commutator, in every list of commutators returned by bch_cc_rsc, and in the list returned by nested_commutator_cc, no two terms differ in notation only: none is obtained from another, up to the coefficient, by renaming summation labels within their spaces, reordering tensors, exchanging upper or lower labels of a tensor or of the operator, or (hermitian) exchanging the upper and lower labels of a tensor.", "quantifier": "all terms built by the library and products of them with separate labels, all limits and flags, all numbers of processes, all orders of set iteration and of the results of the workers, all functions in place of SymPy's canonicalize that meet its contract and answer with a canonical form", "why_tests_cant": "Whether two contributions are recognised as equal depends on the canonical form of every term of a list that grows with the size of the operators; tests compare the lists of a few small commutators.", "anchors": ["dsrg_generator/phys_op_contraction.py:contract_terms", "dsrg_generator/phys_op_contraction.py:combine_terms", "dsrg_generator/phys_op_contraction.py:single_commutator", "dsrg_generator/phys_op_contraction.py:linear_commutator", "dsrg_generator/phys_op_contraction.py:recursive_single_commutator", "dsrg_generator/phys_op_contraction.py:bch_cc_rsc", "dsrg_generator/phys_op_contraction.py:nested_commutator_cc"]}
{"id": "C87", "title": "diagonal_hessian_t is the derivative with respect to the amplitude with the labels of the operator", "statement": "For a term with one amplitude of as many labels as its operator, diagonal_hessian_t returns the coefficient and tensors whose matrix element, at every choice of orbitals for the labels of the operator, is the derivative of the term's matrix element with respect to the amplitude with these orbitals. Without such an amplitude it returns zero, with two it raises NotImplementedError. This is violated when a label of the operator is at another position of the amplitude (the label is renamed), and for a term that consists of the amplitude only (ValueError).", "quantifier": "all terms, all orbital sets, all values of the tensors, all matrix elements, all sizes of the change", "why_tests_cant": "The derivative is a statement about all values of the tensors and all matrix elements; a test sees one list of labels.", "anchors": ["dsrg_generator/Term.py:diagonal_hessian_t"]}
{"id": "C88", "title": "Generated code computes the operators it was derived from", "statement": "Let the arrays H1, H2, ..., T1, T2, ..., L1, L2, ... hold the Hamiltonian, the amplitudes and the cumulants. The statements that print_terms_ambit prints for the terms returned by contract_terms, single_commutator, linear_commutator, recursive_single_commutator, bch_cc_rsc or nested_commutator_cc, when run, add to C0, C1, ... exactly the amplitudes of the product, the commutator, the nested commutator or the level of the transformed Hamiltonian of the given operators, as operators on Fock space; and the function written by save_terms_ambit_functions leaves them in C0, C1, ... whatever these held before. Nothing but the targets and temp changes. This is violated without expand_hole: the array of a hole density has the name C1 of the one-body target.", "quantifier": "all operators built by the library with separate labels, all levels and limits that cut off nothing but uncontracted products, all orbital sets, all values of the tensors, all contents of the target arrays, all numbers of processes and orders of set iteration and worker results, all functions in place of SymPy's canonicalize that meet its contract", "why_tests_cant": "The claim equates the effect of running generated code on every array content with an operator identity; tests compare printed strings or list lengths and never run the code.", "anchors": ["dsrg_generator/phys_op_contraction.py:contract_terms", "dsrg_generator/phys_op_contraction.py:single_commutator", "dsrg_generator/phys_op_contraction.py:linear_commutator", "dsrg_generator/phys_op_contraction.py:recursive_single_commutator", "dsrg_generator/phys_op_contraction.py:bch_cc_rsc", "dsrg_generator/phys_op_contraction.py:print_terms_ambit", "dsrg_generator/write_forte_functions.py:save_terms_ambit_functions", "dsrg_generator/Term.py:ambit"]}
{"id": "C89", "title": "The direct three-body amplitude function performs the DSRG update", "statement": "Let save_direct_t3 be given the bucket cccvvv that categorize_contractions makes of some terms. A call of the function it writes changes T3 only: each element T3[ijkabc] with core i, j, k and virtual a, b, c becomes T3 + R(D) C - exp(-s D^2) T3, where D = Fd_i + Fd_j + Fd_k - Fd_a - Fd_b - Fd_c, R is renormalized_denominator and C is the array of the sum of the terms of the bucket; rms_t3 is the norm of the change of T3. With R(D) D = 1 - exp(-s D^2) this is T3 = R(D) (C + D T3). T3 stays antisymmetric. The arguments are exactly the arrays of the factors, so the function compiles on its own exactly if some term has the factor T3; this is violated when only T1 and T2 are contracted.", "quantifier": "all lists of antisymmetric terms without diagonal labels, all orbital sets, all array contents, all diagonal Fock elements, all functions in place of the renormalised denominator and the exponential", "why_tests_cant": "The repository's test only writes the file; the claim is about the effect of running the written code on every array content.", "anchors": ["dsrg_generator/write_forte_functions.py:save_direct_t3", "dsrg_generator/forte_templates/direct_t3_template", "dsrg_generator/phys_op_contraction.py:categorize_contractions"]}
{"id": "C90", "title": "The printed Ambit code can be read back", "statement": "The text that Term.ambit and print_terms_ambit return, read as C++ statements (words, numbers, string literals; comments dropped), is exactly the sequence of array updates the term stands for: the same target array and labels, assignment or addition, the same exact coefficient, the same factor arrays with the same labels in the same order, the same intermediate array and its blocks. Hence running the text computes the operators (C69). Required: every tensor has labels on both sides and at least one tensor is present; without tensors the text is 'C0 += 1.0 * ;', and a tensor with labels on one side only prints a label list with a dangling comma.", "quantifier": "all antisymmetric terms without diagonal labels, with tensors that have labels on both sides and names made of letters, digits and underscores, and coefficients of denominator at most 10^9; all flags; all lists of such terms", "why_tests_cant": "The repository's tests print the text or compare it for a few terms; that no number, label, sign, separator or comment is ever misread needs an argument over all texts.", "anchors": ["dsrg_generator/Term.py:Term.ambit", "dsrg_generator/Term.py:Term.format_coeff", "dsrg_generator/Tensor.py:Tensor.ambit", "dsrg_generator/IndicesPair.py:IndicesPair.ambit", "dsrg_generator/phys_op_contraction.py:print_terms_ambit"]}
{"id": "C91", "title": "The generated C++ files hold the generated functions", "statement": "save_terms_ambit_functions writes one file per block function, one file for the main function and one header, all under different names. Read as C++ text, every source file includes the class header and holds one member function of the given class; together they are exactly the function of C69-C72, so running what was written accumulates every term into its target array and changes nothing else. Function names differ, and the header declares exactly the written functions with the same parameters. Required: at least one term; for an empty list the parameter list ends with a comma and no file can be read.", "quantifier": "all non-empty lists of printable, readable terms (C90) for which the functions can be built, all function and class names that are C++ identifiers, all output directories and flags", "why_tests_cant": "The repository has no test of the written files; that every parameter list, comment, call and declaration agrees across files is a statement about all lists of terms.", "anchors": ["dsrg_generator/write_forte_functions.py:save_terms_ambit_functions", "dsrg_generator/write_forte_functions.py:save_terms_blocks_ambit_function", "dsrg_generator/helper/file_utils.py:multi_gsub", "dsrg_generator/forte_templates"]}
{"id": "C92", "title": "The file of save_direct_t3 holds the amplitude update", "statement": "The text of the file written by save_direct_t3, read as C++, is one member function of the given class called <name>_direct_t3 that includes the class header; its parameters, local arrays, updates and the statements of the template are those of C89, in the same order. So the written file performs the DSRG amplitude equation for T3. Required: the class, function and tensor names do not contain a placeholder of the template (NAMESPACE, FUNC_NAME, FUNC_VARIABLES, CPP_EXPRESSIONS), because the placeholders are replaced one after the other in the text that already contains the earlier names.", "quantifier": "all lists of printable, readable terms (C90), all buckets of them, all class and function names that are C++ identifiers without placeholders", "why_tests_cant": "The repository has no test of the written file; a misplaced placeholder or a wrong label list in the template changes the meaning only for some names or terms.", "anchors": ["dsrg_generator/write_forte_functions.py:save_direct_t3", "dsrg_generator/helper/file_utils.py:multi_gsub", "dsrg_generator/forte_templates/direct_t3_template"]}
{"id": "C93", "title": "Loops over label lists visit every label once and in order", "statement": "A `for` loop over an Indices object runs its body once for every label, in order, and the results of len, indexing, membership, comparison, hash, latex, count_permutations and next(iter(x)) depend on the labels only, whatever iterations happened before. This holds for every nesting of loops and uses in which the body of a loop over an object does not go through the same object. It does not hold otherwise, because an Indices object is its own iterator: two nested loops over one object stop after the first outer round, taking the hash of (or printing) the object in the loop ends the loop, and looking at its first label in the loop makes the loop endless.", "quantifier": "all programs of uses, sequences and nested loops over any number of objects, all label lists, all positions left behind by earlier iterations", "why_tests_cant": "The position is state shared by all users of an object; tests iterate one object at a time, so they never see how two iterations interfere.", "anchors": ["dsrg_generator/Indices.py:Indices.__iter__", "dsrg_generator/Indices.py:Indices.__next__", "dsrg_generator/Indices.py:Indices.__hash__"]}
{"id": "C94", "title": "SpaceCounter counts shared labels by space", "statement": "SpaceCounter(t1, t2) counts, for every space, the labels that are upper in t1 and lower in t2, and those that are lower in t1 and upper in t2; the totals are the numbers of shared labels; comparisons of counters of the same length are a total order that agrees with ==, counters of different lengths raise ValueError; transpose is an involution and gives the counter of (t2, t1). The constructor as written violates this: it reads the attribute type_of_indices, which no class has, so that every call raises.", "quantifier": "all tensors and operators with distinct labels, all pairs and triples of counters", "why_tests_cant": "The test file imports a module that does not exist any more, so it does not run; and counting and ordering are claims about all label lists.", "anchors": ["SpaceCounter.py:SpaceCounter"]}
{"id": "C95", "title": "Objects that compare equal have equal hashes", "statement": "Label lists, pairs, operators and tensors that compare equal have equal hashes, for every hash function of strings, integers and tuples; so a set built from objects with one class of labels never raises and keeps exactly one object for every different value, in the order of first occurrence. Terms that compare equal and whose coefficients are printed as the same fraction have equal hashes. Violations: label lists of different classes with the same labels always have the same hash, and comparing them raises, so a set cannot hold both; two terms with coefficients that == accepts as close can have different hashes.", "quantifier": "all label lists, pairs, tensors and terms, all hash functions", "why_tests_cant": "A set of objects fails only for the right pair of values, and hash collisions depend on the hash seed of the process.", "anchors": ["dsrg_generator/Indices.py:Indices.__hash__", "dsrg_generator/IndicesPair.py:IndicesPair.__hash__", "dsrg_generator/Tensor.py:Tensor.__hash__", "dsrg_generator/Term.py:Term.__hash__"]}
{"id": "C96", "title": "A Term can be used again after it was simplified or canonicalized", "statement": "simplify, canonicalize and canonicalize_simple change the Term they are called on. For a Term whose labels occur twice and whose densities and operator have distinct labels, in every history of these calls and of changes of the coefficient, also when some calls raise, the object keeps the value it was built with times the factors put into its coefficient, and every Term returned has the value that the object had at that moment. If the Term does not vanish and one setting of remove_active_amplitudes is used, each call returns exactly what it returns on a fresh copy. Violations: a Term with an all-active amplitude returns the empty Term at the first call and raises ValueError at the second; if densities share a label the second call can return another Term than the first.", "quantifier": "all terms accepted by the constructor with distinct labels in densities and operator, all sequences of calls of any length, all orders of python sets, all functions that meet the contract of SymPy's canonicalize, all values of the tensors", "why_tests_cant": "Tests call each method once on a fresh object; the hidden state (labels, counters, core densities already replaced) only matters from the second call on, and histories have no bound.", "anchors": ["dsrg_generator/Term.py:Term.simplify", "dsrg_generator/Term.py:Term.canonicalize", "dsrg_generator/Term.py:Term.canonicalize_simple", "dsrg_generator/Term.py:Term.void_self"]}
{"id": "C97", "title": "A call that raises leaves the value of the Term unchanged", "statement": "If simplify, canonicalize or canonicalize_simple raises on a Term with distinct labels in densities and operator, then the object still has the value that it had before the call, whatever was called before; if simplify raises, coefficient and operator are as before and at most some one-body densities with a core label have become Kronecker deltas. If a density shares a label with the operator this fails: simplify relabels the operator before it raises on the tensors, and the value changes.", "quantifier": "all such terms, all histories before the call, all calls, all points at which a call raises, all values of the tensors", "why_tests_cant": "It is a claim about all points at which the call can be interrupted by an exception, and about the state left behind, which tests of the exception do not look at.", "anchors": ["dsrg_generator/Term.py:Term.simplify", "dsrg_generator/Term.py:Term._downgrade_cumulant_indices", "dsrg_generator/Term.py:Term._remove_kronecker_delta"]}
{"id": "C98", "title": "Label lists can be written as text and read back", "statement": "Indices.make_indices(text, name) succeeds exactly if the name is one of the documented names of a class of labels and the text lists label names separated by commas, with any white space around them, no name twice and no beta label for spin orbitals; the result holds these labels in this order. str(x) of a label list is read back as an equal list of the same class. A refused text raises KeyError for an unknown class and ValueError otherwise. Violations: an empty name (comma at the end, text of blanks) raises IndexError instead of ValueError, and names with leading zeros let one label in twice.", "quantifier": "all texts of any length, all names of classes, all label lists", "why_tests_cant": "Tests read a few well-formed texts; the accepted set is a language over all strings.", "anchors": ["dsrg_generator/Indices.py:Indices.make_indices", "dsrg_generator/Indices.py:Indices.__init__", "dsrg_generator/Indices.py:Indices.__repr__", "dsrg_generator/Index.py:Index.__init__"]}
{"id": "C99", "title": "Pairs, operators and tensors can be built from text, lists or objects, and copied", "statement": "IndicesPair, SecondQuantizedOperator and Tensor.make_tensor accept upper and lower labels given as texts, lists, tuples (of names and Index objects) or label-list objects, exactly if both stand for label lists, are given in the same way and, for tensors, have the shape and spin of the class selected by its name; the object has these labels, both of one class, and the default name and priority of its class. clone() and from_indices with the printed labels return an equal object. Lists that are refused raise ValueError (KeyError for an unknown class, IndexError for an empty name), and what is no sequence raises TypeError. Violation: labels given in two different ways raise TypeError although each is accepted.", "quantifier": "all arguments in all formats, all names of classes of labels and tensors, all tensors", "why_tests_cant": "It is an exact condition over all combinations of formats and label lists.", "anchors": ["dsrg_generator/IndicesPair.py:IndicesPair.__init__", "dsrg_generator/SQOperator.py:SecondQuantizedOperator.__init__", "dsrg_generator/Tensor.py:Tensor.make_tensor", "dsrg_generator/Tensor.py:Tensor.clone", "dsrg_generator/Tensor.py:Tensor.from_indices"]}
{"id": "C100", "title": "Whatever is computed with the library is the operator it stands for", "statement": "Take any computation with Hamiltonians, excitation and de-excitation operators: sums, opposites, products by contract_terms and commutators by single_commutator (term by term), with like terms combined, terms canonicalized (zero results dropped) and terms expanded in blocks at any moments. If factors share no labels, no coefficient is negligible, open labels are not limited and cumulants beyond the level kept vanish, the returned terms add up to the operator the computation stands for, in every algebra of fermion operators; so do their spin cases, taken over all spin orbitals, and the code printed for them computes it. No call of such a computation raises an exception and every call returns.", "quantifier": "all computations of any length and nesting, all ranks and labels, all numbers of processes and delivery orders, all choices of SymPy and set iteration orders, all operator algebras", "why_tests_cant": "Tests follow a few fixed sequences of calls; the claim is an induction over all histories of calls, each with all schedules.", "anchors": ["dsrg_generator/phys_op_contraction.py:contract_terms", "dsrg_generator/phys_op_contraction.py:single_commutator", "dsrg_generator/phys_op_contraction.py:combine_terms", "dsrg_generator/Term.py:Term.canonicalize_sympy", "dsrg_generator/Term.py:Term.expand_composite_indices", "dsrg_generator/Term.py:Term.generate_spin_cases_naive", "dsrg_generator/Term.py:Term.from_term"]}
{"id": "C101", "title": "Limits on open operators drop exactly the strings outside the limits", "statement": "With limits min_n_open and max_n_open, the terms returned by contract_terms, single_commutator, linear_commutator, nested_commutator_cc and each level of bch_cc_rsc and recursive_single_commutator agree with the product or commutator of the operators, except for normal-ordered strings whose number of operators is outside the limits: every linear function that is zero on those strings has the same value on the returned terms and on the product or commutator. For library terms the calls return.", "quantifier": "all factors with separate labels, all limits, all cumulant levels, all schedules, all operator algebras and all linear functions on them", "why_tests_cant": "Tests compare numbers of terms for a few limits; the claim ranges over all factors, limits and operators.", "anchors": ["dsrg_generator/phys_op_contraction.py:contract_terms", "dsrg_generator/phys_op_contraction.py:single_commutator", "dsrg_generator/phys_op_contraction.py:linear_commutator", "dsrg_generator/phys_op_contraction.py:bch_cc_rsc", "dsrg_generator/sqop_contraction.py:compute_operator_contractions_general", "dsrg_generator/phys_op_contraction.py:nested_commutator_cc", "dsrg_generator/phys_op_contraction.py:recursive_single_commutator"]}
{"id": "C102", "title": "bch_cc_rsc with limits computes the truncated transformation", "statement": "With a limit of the number of open operators per level, the terms of level n of bch_cc_rsc add up to the truncated nested commutator of the theory: C_0 is the Hamiltonian (without active orbitals, see C57), and C_(n+1) is 1/(n+1) [C_n, A] without the normal-ordered strings that have more operators than the limit of this level.", "quantifier": "all levels, ranks of amplitudes, limits, both formalisms, all schedules and all operator algebras with a truncation map", "why_tests_cant": "The truncated series is defined by recursion over levels for every operator; tests count terms of low levels.", "anchors": ["dsrg_generator/phys_op_contraction.py:bch_cc_rsc"]}
{"id": "C103", "title": "Terms without operators are expectation values in the reference", "statement": "If the densities are the cumulants of a reference (its expectation values of all products of operators are the sums over all ways of grouping operators into cumulants), the returned terms without operators of contract_terms, single_commutator, linear_commutator and each level of recursive_single_commutator add up to the expectation value of the product or commutator, and those of a level of bch_cc_rsc or of nested_commutator_cc to the contribution of the level to the energy. Normal-ordered strings have no expectation value exactly if the densities are the cumulants of the reference.", "quantifier": "all references (correlated ones included), all factors, all limits that do not exclude terms without operators, all operator algebras", "why_tests_cant": "Tests compare with known expressions for one method; the claim ranges over all references and factors.", "anchors": ["dsrg_generator/phys_op_contraction.py:contract_terms", "dsrg_generator/phys_op_contraction.py:single_commutator", "dsrg_generator/phys_op_contraction.py:bch_cc_rsc", "dsrg_generator/sqop_contraction.py:compute_operator_contractions_general", "dsrg_generator/phys_op_contraction.py:nested_commutator_cc"]}
{"id": "C104", "title": "The code printed for spin cases computes the operator over all spin orbitals", "statement": "For spin-orbital terms built with the library, without hole densities, generate_spin_cases_naive returns for every term, and the code that print_terms_ambit prints for all spin cases (or the function that save_terms_ambit_functions writes) stores spin blocks in the target arrays that are the amplitudes of the sum of the terms over all spin orbitals; like spin cases may be combined first. In particular the code printed for the spin cases of level n of bch_cc_rsc computes 1/n! [...[[H, A], A]..., A] over all spin orbitals, and the code for the spin cases of any computation computes the operator that the computation stands for.", "quantifier": "all lists of library terms and all computations, all levels of the transformation, all sets of orbitals with spins, all spin-conserving tensors, all contents of the arrays, all choices of SymPy and iteration orders of sets", "why_tests_cant": "Tests compare printed text for a few terms; the claim is about the arrays after execution, for all terms, orbitals and tensors.", "anchors": ["dsrg_generator/Term.py:generate_spin_cases_naive", "dsrg_generator/phys_op_contraction.py:print_terms_ambit", "dsrg_generator/write_forte_functions.py:save_terms_ambit_functions", "dsrg_generator/phys_op_contraction.py:bch_cc_rsc", "dsrg_generator/phys_op_contraction.py:combine_terms"]}
{"id": "C105", "title": "Computations are functions of their arguments", "statement": "contract_terms, single_commutator, linear_commutator, recursive_single_commutator, bch_cc_rsc (every level) and nested_commutator_cc return equal lists of terms when called twice with the same arguments, whatever n_process, the number of processors, the order in which workers finish, the order in which Python iterates over sets (the hash seed) and, for nested_commutator_cc, the order in which SymPy lists the products of the expanded commutator (exact arithmetic, the same SymPy).", "quantifier": "all library terms, all levels and limits, all numbers of processes and processors, all schedules of the workers, all iteration orders of sets, all orders of SymPy's expansion", "why_tests_cant": "There are n! arrival orders per contraction and the levels feed each other; a test runs one schedule.", "anchors": ["dsrg_generator/phys_op_contraction.py:contract_terms", "dsrg_generator/phys_op_contraction.py:single_commutator", "dsrg_generator/phys_op_contraction.py:linear_commutator", "dsrg_generator/phys_op_contraction.py:recursive_single_commutator", "dsrg_generator/phys_op_contraction.py:bch_cc_rsc", "dsrg_generator/phys_op_contraction.py:nested_commutator_cc", "dsrg_generator/Term.py:simplify", "dsrg_generator/Term.py:make_ddca"]}
{"id": "C106", "title": "Operations on terms do not depend on the hash seed", "statement": "The order in which Python iterates over sets (which depends on the hash seed) does not change what the operations on a term return: canonicalize, make_excitation, gradient_t and generate_spin_cases_naive return equal results for every term; simplify, canonicalize_simple and canonicalize_sympy for every library term; make_one_body_diagonal and the zeroth-order Hamiltonians return the same terms in another order, and make_ddca and expand_composite_indices return the same terms in another order.", "quantifier": "all terms (or all library terms), all options, all pairs of iteration orders of sets", "why_tests_cant": "A test runs with one hash seed and one process; the claim compares all iteration orders for all terms.", "anchors": ["dsrg_generator/Term.py:canonicalize", "dsrg_generator/Term.py:simplify", "dsrg_generator/Term.py:canonicalize_simple", "dsrg_generator/Term.py:make_excitation", "dsrg_generator/Term.py:gradient_t", "dsrg_generator/Term.py:generate_spin_cases_naive", "dsrg_generator/Term.py:make_one_body_diagonal", "dsrg_generator/Term.py:make_ddca", "dsrg_generator/Term.py:expand_composite_indices"]}
{"id": "C107", "title": "In the unitary formalism the transformed Hamiltonian is Hermitian", "statement": "With unitary=True the terms that bch_cc_rsc returns for any level add up to a Hermitian operator, also when the levels are cut off by limits on cumulants and open labels; so do the terms of linear_commutator_amp when the given terms do, and the terms of nested_commutator_cc (all contractions, or connected contractions and at most two commutators).", "quantifier": "all levels of the transformation, all amplitude ranks, all limits, all sets of orbitals, all real antisymmetric tensors with symmetric integrals, all algebras of fermion operators with a Hermitian conjugation, all schedules", "why_tests_cant": "Hermiticity concerns the sum of all returned terms as an operator, for every choice of integrals, amplitudes and orbitals; tests compare lists of terms for small cases.", "anchors": ["dsrg_generator/phys_op_contraction.py:bch_cc_rsc", "dsrg_generator/phys_op_contraction.py:linear_commutator_amp", "dsrg_generator/phys_op_contraction.py:nested_commutator_cc", "dsrg_generator/phys_op_contraction.py:cluster_operators"]}
{"id": "C108", "title": "Every term of a commutator is linked", "statement": "With for_commutator=True every term that contract_terms, single_commutator, linear_commutator, linear_commutator_amp, recursive_single_commutator, bch_cc_rsc and nested_commutator_cc return is linked: however its tensors are divided in two groups, some label is shared by both groups. No returned term is a product of independent factors.", "quantifier": "all linked terms built with the library (for contract_terms: with operators), all ranks and levels, all limits on cumulants and open labels, all schedules, all orders of the expansion", "why_tests_cant": "Linkedness must survive the removal of deltas, relabelling, canonicalization and combination for every term of every commutator at any depth; tests compare a few lists of terms.", "anchors": ["dsrg_generator/phys_op_contraction.py:contract_terms", "dsrg_generator/phys_op_contraction.py:single_commutator", "dsrg_generator/phys_op_contraction.py:bch_cc_rsc", "dsrg_generator/phys_op_contraction.py:nested_commutator_cc", "dsrg_generator/sqop_contraction.py:compute_operator_contractions_general", "dsrg_generator/Term.py:simplify"]}
{"id": "C109", "title": "Contractions keep the factors of a product; level n has one Hamiltonian and n amplitudes", "statement": "Apart from cumulants, hole densities and Kronecker deltas, every term that contract_terms returns has exactly the tensors of the product: the same classes, names and numbers of labels, each as often. So a single_commutator has the tensors of both arguments, level j of recursive_single_commutator those of the first term and the next j + 1 terms, and every term of level n of bch_cc_rsc and of nested_commutator_cc(n) has one Hamiltonian tensor and n amplitudes (nested level 0 is computed as level 1). No amplitude is lost, duplicated or changed in rank.", "quantifier": "all terms built with the library, all ranks and levels, all limits on cumulants and open labels, both modes of contraction, all schedules, all orders of the expansion", "why_tests_cant": "The order of every term in the amplitudes must hold at any depth after delta removal, canonicalization and combination; tests compare a few lists of terms.", "anchors": ["dsrg_generator/phys_op_contraction.py:contract_terms", "dsrg_generator/phys_op_contraction.py:single_commutator", "dsrg_generator/phys_op_contraction.py:recursive_single_commutator", "dsrg_generator/phys_op_contraction.py:bch_cc_rsc", "dsrg_generator/phys_op_contraction.py:nested_commutator_cc", "dsrg_generator/Term.py:simplify", "dsrg_generator/Term.py:canonicalize_sympy"]}
{"id": "C110", "title": "Commutators have at least two operators less than products", "statement": "In connected mode (the default), every term that single_commutator returns has at least two creation or annihilation operators less than its two arguments together: the commutator of an n-body and a k-body operator has at most n + k - 1 bodies. So does every term of linear_commutator for some pair of its arguments, and the terms of level n of bch_cc_rsc with amplitudes of up to K bodies have at most 2 (2 + n (K - 1)) operators, without any limit on open labels.", "quantifier": "all terms built with the library, all ranks and levels, all limits, all schedules", "why_tests_cant": "The bound on the rank must hold for every product and at any depth; tests count the operators of a few terms.", "anchors": ["dsrg_generator/phys_op_contraction.py:single_commutator", "dsrg_generator/phys_op_contraction.py:linear_commutator", "dsrg_generator/phys_op_contraction.py:bch_cc_rsc", "dsrg_generator/sqop_contraction.py:compute_operator_contractions_connected"]}
{"id": "C111", "title": "The expansion of single-reference coupled cluster theory ends after four commutators", "statement": "With single_reference=True and unitary=False, every level of bch_cc_rsc has one operator less that an amplitude can be contracted with: the terms of level n have at most 4 - n core creation and virtual annihilation operators. So all levels after the fourth are empty lists, whatever the ranks of the amplitudes and the limits. nested_commutator_cc of level 5 and more returns no term either, because every amplitude has to be contracted with an operator of the Hamiltonian of its own. Excitation operators commute: single_commutator of two single-reference amplitudes (or of two conjugate ones) returns no term.", "quantifier": "all ranks of amplitudes, all numbers of levels, all limits, all schedules, all coefficients", "why_tests_cant": "That a level is empty for all ranks and limits cannot be seen from examples; the computation of the fifth level is expensive and no test does it.", "anchors": ["dsrg_generator/phys_op_contraction.py:bch_cc_rsc", "dsrg_generator/phys_op_contraction.py:nested_commutator_cc", "dsrg_generator/phys_op_contraction.py:single_commutator", "dsrg_generator/Term.py:cluster_operator", "dsrg_generator/sqop_contraction.py:compute_operator_contractions_connected"]}
{"id": "C112", "title": "Four levels of bch_cc_rsc are the coupled cluster similarity transformation", "statement": "For a single determinant (single_reference=True, unitary=False, no active orbitals) the terms that bch_cc_rsc returns for four or more levels add up to exp(-T) H exp(T) exactly, where exp is the exponential series of the nilpotent operator T that the amplitudes stand for. The terms without operators add up to the coupled cluster energy, the expectation value of exp(-T) H exp(T), and the code printed for the terms computes exp(-T) H exp(T). The Hamiltonian and the terms of nested_commutator_cc for one to four commutators add up to the same operator, in connected mode and with all contractions.", "quantifier": "all ranks of amplitudes and numbers of levels from four on (coefficients above the threshold of combine_terms), all limits that cut off nothing but uncontracted products, all schedules, all numbers and kinds of inactive orbitals, all amplitudes and integrals, all representations of the operators", "why_tests_cant": "Equality with the exponential is an identity of operators for all orbitals, amplitudes and integrals; tests compare printed terms of two or three levels.", "anchors": ["dsrg_generator/phys_op_contraction.py:bch_cc_rsc", "dsrg_generator/phys_op_contraction.py:single_commutator", "dsrg_generator/Term.py:cluster_operator", "dsrg_generator/Term.py:hamiltonian_operator", "dsrg_generator/phys_op_contraction.py:nested_commutator_cc"]}
{"id": "C113", "title": "Commutators keep the excitation; two levels give the coupled cluster energy", "statement": "If two terms have core and virtual labels only, every term that single_commutator returns in connected mode (the default) raises the excitation (virtual creation and core annihilation operators less the opposite ones) by as much as the two terms together. With single_reference=True and unitary=False, the operators of a term of level n of bch_cc_rsc therefore raise the excitation by the number of labels of its amplitudes (at least 2n) less at most four. Terms without operators occur in levels 0, 1 and 2 only, with amplitudes of at most four labels together (singles, doubles, or singles twice), and the terms without operators of two or more levels add up to the exact coupled cluster energy, the expectation value of exp(-T) H exp(T). The terms of nested_commutator_cc have at most four operators less than their amplitudes have labels, so that its terms without operators, too, come with at most two commutators and four labels of amplitudes.", "quantifier": "all terms built with the library, all ranks of amplitudes, all numbers of levels and all limits, all schedules; for the energy: all numbers and kinds of inactive orbitals, all amplitudes and integrals, all representations of the operators, limits that cut off nothing but uncontracted products, coefficients above the threshold of combine_terms", "why_tests_cant": "A test sees the terms of one choice of amplitudes and levels; that no scalar term exists at level three or four for any rank of amplitudes, and that the two levels give the whole energy, is a statement about all of them.", "anchors": ["dsrg_generator/phys_op_contraction.py:single_commutator", "dsrg_generator/phys_op_contraction.py:bch_cc_rsc", "dsrg_generator/sqop_contraction.py:compute_elementary_contractions_list", "dsrg_generator/Term.py:cluster_operator", "dsrg_generator/phys_op_contraction.py:nested_commutator_cc"]}
