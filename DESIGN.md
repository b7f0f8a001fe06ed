# Formal model of dsrg_generator in Lean 4

Subject: `/repo` (python package `dsrg_generator`), read as text only; never run.
Prover: Lean 4.33.0 with the installed Mathlib. Lake project in `/verif/lean`.

## 1. Layout

| directory | content |
|---|---|
| `lean/Verif/Model/*.lean` | shallow functional model, one file per python file; every definition cites file and lines |
| `lean/Verif/Spec/*.lean` | small specifications that do not mention the model's helper functions |
| `lean/Verif/Lemmas/*.lean` | proof engineering, not meant to be read for the claims |
| `lean/Verif/Props/*.lean` | the property theorems, named `C<nn>_...`, each with an `example` showing that its hypotheses are met by a concrete non-trivial case |

### 1.1 Model modules

| module | python code | what it contains |
|---|---|---|
| `Py`, `Itertools` | built-ins, itertools, SymPy iterators | exceptions, decimal numerals, lexicographic order; product, combinations, multiset permutations |
| `MoSpace` | mo_space.py | labels, `space_relation`, `find_space_label`, `MOSpaceCounter` |
| `SpaceCounter` | /repo/SpaceCounter.py | the counter of shared labels |
| `Index`, `Indices`, `IndicesPair` | Index.py, Indices.py, IndicesPair.py, SQOperator.py | parsing, comparison, spin, the index-list classes, pairs, merge sort with parity, permutation formats |
| `Iteration` | Indices.py:170-192 | `__iter__`, `__next__`, `__getitem__`, `__len__`, `__hash__`, `__contains__` of `Indices` with the shared position |
| `Tensor` | Tensor.py | classes, constructors' checks, comparison, `downgrade_indices` |
| `IntegerPartition` | helper/integer_partition.py | ZS1 as a state machine, `integer_separation` |
| `Elementary`, `Backtrack`, `MacroSearch`, `Contract`, `ExpandHole` | sqop_contraction.py | elementary contractions, both backtrackings, the search over categories, assembly of rows with signs, hole densities |
| `Term` | Term.py:16-661, 795-1000 | constructor, factories, `simplify`, `canonicalize_simple`, blocks, spin cases |
| `TermObject` | Term.py:190-201, 297-305, 508-793 | the state of a `Term` object after a call of `simplify`, `canonicalize` and `canonicalize_simple`, also after an exception; programs of several calls |
| `Parse` | Indices.py:55-120, 134-135, 199-201; IndicesPair.py:10-27; SQOperator.py:6-13; Tensor.py:6-68 | label lists from strings, lists and tuples; classes by name; pairs, operators and tensors from convertible arguments; copies. White space is the ASCII white space of `str.strip`, digits are ASCII digits |
| `Sympy` | Term.py:681-793, IndicesPair.py:244-321 | `canonicalize_sympy` with SymPy's `canonicalize` as a parameter, and the symmetry groups |
| `TermOps` | Term.py:989-1168 | `make_excitation`, `make_one_body_diagonal`, `gradient_t` |
| `Hessian` | Term.py:1170-1200 | `diagonal_hessian_t` |
| `ZerothOrder` | Term.py:36-70 | `diagonal_fock_operator`, `dyall_hamiltonian`, `fink_hamiltonian` |
| `Singlet` | Term.py:1006-1037 | `generate_singlet_adaptation` (the version for label pairs is in `IndicesPair`) |
| `ContractionPath` | Term.py:1202-1281 | enumeration of contraction paths and their costs |
| `Format` | Term.py:312-323 | `format_coeff` |
| `Ambit` | Term.py:357-462, phys_op_contraction.py:453-468 | generated contraction code, `perm_partition_open`, `categorize_contractions` |
| `Forte` | phys_op_contraction.py:471-484, write_forte_functions.py:6-156 | printed programs and generated C++ functions |
| `Combine` | Term.py:231-275, phys_op_contraction.py:130-155 | comparison and hashing of terms, `combine_terms` |
| `PhysOp` | phys_op_contraction.py:30-127, 158-300 | `contract_terms`, `single_commutator`, `linear_commutator`, `recursive_single_commutator` as relations between arguments and possible results |
| `Nested` | phys_op_contraction.py:370-381 | the symbolic nested commutator |
| `Bch` | phys_op_contraction.py:184-223, 303-367, 384-450 | `cluster_operators`, `linear_commutator_amp`, `bch_cc_rsc`, `nested_commutator_cc` as relations that also record the inner calls |
| `Raises` | phys_op_contraction.py | which runs can end in an exception |
| `Latex` | Term.py:325-355, Indices.py:318-325, 457-469, SQOperator.py:107-119, phys_op_contraction.py:487-500 | the text of `Term.latex` and `print_terms_latex` |
| `Hashing` | Indices.py, IndicesPair.py, Tensor.py, Term.py | `__hash__` of all classes, python sets |
| `DirectT3` | write_forte_functions.py:159-197, forte_templates/direct_t3_template | the function for three-body amplitudes |
| `AmbitText` | Term.py:312-323, 357-408, Tensor.py, IndicesPair.py, Indices.py (`ambit`), phys_op_contraction.py:471-484 | the characters of the printed code |
| `ForteText` | write_forte_functions.py:6-197, helper/file_utils.py:6-9, forte_templates | names and characters of the written files |
| `ChangeDir` | helper/file_utils.py:12-34 | the context manager as a state machine |

Not modelled: the file system (a written file is a name and its characters), timing output, and the regular expression syntax of
`multi_gsub` (the placeholders and the names that replace them are plain words).

### 1.2 Runs as relations

`Model/PhysOp` and `Model/Bch` model a call as a relation `Run arguments result`, because `set.pop()`, the iteration order of sets, worker
scheduling and the order of SymPy's expansion are not determined. Theorems quantify over every run. `Model/Raises` gives the matching
predicates for runs that raise; C76 proves that library operators never meet them and that a run exists, so the relations are not empty.
The parameters of a machine are `canon` (SymPy's `canonicalize`, constrained by `CanonContract` in `Spec/DoubleCoset.lean`), `ord`
(the iteration order of sets, any lawful one) and the number of processors. `Lemmas/PlainCanon.lean` exhibits a function that meets
`CanonContract`, so the hypothesis can be satisfied. C85 and C86 also assume that SymPy's answer is a canonical form (`CanonUnique` in
`Spec/CanonicalForm.lean`), which `chosenCanon` satisfies together with `CanonContract`.

## 2. Modelling decisions (shared by all properties)

* **Exceptions are values.** A python function that may raise becomes `Except PyErr α`; the error constructors are
  the python exception classes. Functions that cannot raise are plain functions.
* **Space labels.** The twelve characters `g p h v c a G P H V C A` are a finite type `Space` (orbital kind and spin);
  the character form is kept for parsing and printing.
* **Index.** An `Index` in most of the model is (space, number); the python object additionally keeps its name.
  `Model/Index.lean` models the object with its name, and C03/C05 prove that for names without leading zeros (all the
  names the package itself generates) name and (space, number) determine each other; that justifies using
  (space, number) elsewhere, including as the key of sets and dictionaries.
* **Sets and dictionaries.** Iteration order of sets and the element returned by `set.pop()` are not fixed by python;
  wherever they matter the model takes them as an arbitrary choice (a relation or a universally quantified order).
* **Generators** are modelled by the list of everything they yield. Mutable accumulator arguments that are
  pushed/popped around `yield` (`chosen`, `target`, `available`) are passed as values; that the python code restores
  them is by inspection (each `append`/`add` is matched by a `pop`/`remove` on the same path), and consumers use each
  yielded value before resuming the generator (they do: `process_composite_*` runs before the next `next()`, the
  multiprocess branches copy with `i[:]` / `list(i)`).
* **Floats.** Coefficients are exact rationals. Rounding is not modelled; the `1e-15` void threshold is.
* **External code.** SymPy's `canonicalize`, `Permutation.inversions`, `multiset_permutations`, itertools, `sorted`
  and `multiprocessing` are not verified. `Permutation(l).inversions()` is modelled by the inversion count of `l`;
  `multiset_permutations`, `combinations`, `product`, `permutations` by functions in `Model/Itertools.lean` proved to
  enumerate exactly what their documentation says; `canonicalize` is a parameter constrained by its documented
  contract; `imap_unordered` delivers an arbitrary permutation of the results.
* **Meaning of a term.** `Spec/Semantics.lean`: an interpretation gives a finite set of orbitals, the elementary space
  (core/active/virtual, alpha/beta) of each, a value in a commutative ring for each tensor name on lists of orbitals,
  and a vector for each operator string. The value of a term is the sum over all assignments of orbitals to its
  labels (each label ranging over the orbitals of its space) of coefficient × product of tensors × operator.
  Antisymmetry, vanishing of densities outside their space etc. are hypotheses on the interpretation.
* **Operators.** `Spec/Wick.lean` ties the operator strings of an interpretation to actual operators: elements `field (b, x)` of an
  algebra that obey the canonical anticommutation relations, and the recursion `N(x w) = x N(w) - Σ ± contraction(x S) N(w \ S)` for the
  product that is normal ordered with respect to a reference with given densities and cumulants. C77 onwards are stated in these terms.

## 3. Trusted base

* Lean's kernel; axioms `propext`, `Classical.choice`, `Quot.sound` only (checked with `#print axioms`, see §6).
* The reading of the python source into `Model/*.lean` (function by function, with the simplifications named in the
  comments), and the statements in `Spec/*.lean` and `Props/*.lean`.
* Nothing is `sorry`, no axiom is added, no `native_decide`/`bv_decide`.

## 4. Plan per property

| id | model | method |
|---|---|---|
| C01 | `space_relation`, `find_space_label` on finite sets of labels | whole finite table by kernel `decide`, lifted to intersections of arbitrary label lists; counterexample {c,v} |
| C02 | `MOSpaceCounter` on association lists with natural counts | order laws from lexicographic order; counterexamples for == |
| C03 | character-list parser | case analysis; decimal printing/parsing round trip by strong induction |
| C04 | comparison of (priority, number) | linear order laws |
| C05 | eq/hash on named indices | injectivity of decimal printing; counterexample g1/g01 |
| C06 | upper/lower on names | case analysis |
| C07 | constructors | equivalence with `List.Nodup` |
| C08 | merge sort with counter | induction; inversion count of append; generic over a total order |
| C09, C10 | `canonicalize`, `count_permutations` | sign of an inversion count; antisymmetric functionals |
| C11, C12 | multiset permutations, interleavings | enumeration lemmas; multinomial count |
| C13, C14 | `product`, `combinations` | enumeration lemmas; cardinalities |
| C15 | lexicographic comparisons | linear order by injective key |
| C16 | `clone`, `from_term` | equational |
| C17 | `downgrade_indices` | full finite table |
| C18 | constructors | case analysis |
| C19 | `expand_hole_densities` | induction on the list, distributivity |
| C20 | ZS1 state machine (array, m, h) | invariant + immediate-predecessor argument in lexicographic order |
| C21 | ranges | induction |
| C22–C25 | elementary contractions | membership and no-duplicates characterisations |
| C26 | prefix sums and bisect | induction |
| C27–C29 | backtracking as an inductive relation over all pop orders | induction on the derivation |
| C30–C32 | macro search | invariants; combinatorial completeness argument for ≤ 3 operators; counterexample for 4 |
| C33–C35 | sign and conservation | parity of block moves |
| C36 | depth of recursion | instrumented depth function, counterexample |
| C37–C39 | Term constructor, factories, fresh labels | counting |
| C40–C44, C59, C62 | semantics preservation | one change-of-variables lemma for sums over assignments, instantiated; for C59 the totality of `canonicalize` on spin-integrated terms rules out the swallowed `ValueError` for every term built with the library; `Props/LibraryOps.lean`: for these terms the calls return and the conditions of the partial theorems hold (invariant `Ready`, `Lemmas/ReadyTerm.lean`, `Lemmas/ReadyOps.lean`) |
| C45, C46 | permutation partitions and generated code | enumeration + semantics of the accumulate statements |
| C47 | path enumeration | induction; argmin fold |
| C48 | printing | prefix-free decoding |
| C49–C54 | combine/contract | association-list folds; permutation invariance of sums |
| C55–C58 | commutator drivers | counting labels, recursion |
| C60, C63, C64 | code writer, formatting, ChangeDir | small state machines |
| C61 | simplify totality | counterexamples; totality on the terms `contract_terms` simplifies (two-sided products) |
| C65 | comparison of terms | injective sort key; counterexamples from the tolerance in == |
| C66 | value of `contract_terms` and `single_commutator` | signs, simplification, canonicalization and combination composed; sum over allowed contractions (`IsContraction`) |
| C67, C68 | `make_one_body_diagonal`, `gradient_t` | restriction of the sum over assignments; derivative with a nilpotent parameter; `C67_library`, `C68_library` add that the calls return for terms built with the library |
| C69–C73 | programs and functions | store semantics of `+=`; counterexamples |
| C74, C75 | nested commutators and BCH levels | free algebra for the symbolic expansion; label counting (C55) makes C66 applicable at every level |
| C76 | no exceptions | every label of a contraction occurs on the two sides of the product; this rules out answer 0 of SymPy and all ValueErrors |
| C77, C78 | contractions as operator products | normal ordering defined by recursion from the anticommutation relations and any contraction function; product of normal-ordered strings = signed sum over set partitions (`Lemmas/WickAlgebra`); matched with the enumerated contractions (`WickRows`, `WickMatch`, `WickProduct`); sums over disjoint labels multiply (`WickValue`) |
| C79, C80 | BCH levels and nested commutators as operators | `Spec/Transformation.lean` defines Hamiltonian, amplitudes and nested commutators without labels; the sum over the labels of one tensor is a sum over tuples of orbitals; C75/C74 give contractions at every level, C77/C78 turn them into operator products; the number of operators per term is bounded level by level (`Lemmas/WickBch`) |
| C81 | `linear_commutator`, `linear_commutator_amp`, `recursive_single_commutator` as operators | C78 for every pair, bilinearity of the commutator, and for the recursion an induction over the levels that carries the bound on the labels, the number of operators and the grid of the coefficients (`Props/Commutators`) |
| C82 | `generate_singlet_adaptation` of terms and of label pairs | `Spec/Singlet.lean` defines spin-dependent values by the signed sum over all permutations of the lower orbitals; only permutations that keep the order of spins survive, which factor into alpha and beta permutations (`Lemmas/SignedSum`, `Lemmas/SingletPair`); renaming beta labels is a bijection of assignments; the rows are counted as in C46 (`Props/Singlet`) |
| C83 | `diagonal_fock_operator`, `dyall_hamiltonian`, `fink_hamiltonian` | `Spec/ZerothOrder.lean` states the three operators without labels; the one-body part is C67 for the one-body Hamiltonian; for the two-body part, the value of any selection of the blocks of `make_ddca` is the sum over the assignments whose spaces are selected (`Lemmas/Ddca`); no exception by C44 and the totality of `canonicalize` (`Props/ZerothOrder`) |
| C84 | `Term.latex`, `latex_permute_format`, `print_terms_latex` | `Spec/Latex.lean` defines formulas, their text (written independently of the code) and their meaning: `P(ij/k)` sums over the orders of the operator's labels that keep each group in order, with the sign of the order; the number of such orders is the number of words counted by `n_multiset_permutation`, and each contributes the same value by antisymmetry; unambiguity by cancelling the text from the left; `print_terms_latex` from C58 |
| C85 | `canonicalize_sympy` as a canonical form | `Spec/CanonicalForm.lean` defines changes of notation (renaming, reordering, exchange of labels with a sign, adjoint) of a product and what it means that SymPy's answer is canonical (`CanonUnique`); every change of notation of the term is a chain of symmetries of the names handed to SymPy (`Lemmas/Naming`, `CanonEntries`, `CanonLeads`, `CanonChain`), the minimal names, the dummy ranges and the symmetry groups are the same (`CanonMain`), so the answers agree up to sign and so do the rebuilt terms (`CanonSame`); a function with the contract and canonical answers is exhibited (`chosenCanon`) |
| C86 | like terms are collected | `Collected` in `Spec/CanonicalForm.lean`: no two terms of a list are related by changes of notation. `Lemmas/CanonBack` shows that the result of `canonicalize_sympy` is related to the given term by changes of notation (also `C85_result`, `C85_converse`), so the result is a fixed point; equal up to notation then means equal (`Lemmas/Collected`), and `combine_terms` merges equal terms. The property is carried through the runs of `contract_terms`, the commutators, the levels of `bch_cc_rsc` and the words of `nested_commutator_cc` |
| C87 | `diagonal_hessian_t` is a derivative | `Spec/Hessian.lean`: the matrix element of a term at given orbitals of its operator, and an interpretation with one amplitude changed by `ε`. The element changes by `ε` times the element of the result (`C87_derivative_partial`), by a bijection between assignments in which the labels of the amplitude are tied and assignments of the labels left. Needs labels shared by amplitude and operator to be at the same position; false otherwise (violation), and a single amplitude raises (violation) |
| C88 | generated code computes the operators it was derived from | `Spec/EndToEnd.lean`: the arrays a caller supplies, the operator whose amplitudes are the target arrays, and `PrintedCodeComputes` for both kinds of generated code. `Lemmas/Printed` shows that every term made by contractions of library operators can be printed (made by the constructor, no label twice in a tensor, so no diagonal label), and that with `expand_hole` no hole density is left; `Lemmas/Written` composes this with C69. The property theorems compose the result with C77 to C81. Proved; `C88_violation_hole_density` for `expand_hole=False`. |
| C89 | the function for three-body amplitudes performs the DSRG update | `Model/DirectT3.lean`: parameters, statements of the terms and the six statements of the template; `Spec/DirectT3.lean`: their effect on the arrays, with `renormalized_denominator` and the exponential as arbitrary functions. The statements of the terms are those of a block function (C69), started from a zero array. Proved; `C89_declared_partial` says when all arrays are declared, `C89_violation_undeclared` that they need not be. |
| C90 | the printed code can be read back | `Model/AmbitText.lean`: the characters of the text; `Spec/AmbitText.lean`: a reader of C++ statements, independent of the printer: words, string literals, numbers, products, label lists. Every line of the text is shown to be a sequence of complete words, and the reader returns the statements of `Model/Ambit.lean`, so that C46, C69 and C88 hold of the text. Proved for readable terms; two violations otherwise. |
| C91 | the written files | `Model/ForteText.lean`: the names and characters of the files, including the filled templates; `Spec/ForteText.lean`: a reader of function definitions and declarations on top of the reader of C90. Every file is shown to be a sequence of complete words, the reader returns the functions of `Model/Forte.lean` and `Model/ForteMain.lean`, and C69 carries over to the files. One violation (no terms). |
| C92 | the file of save_direct_t3 | `Model/ForteText.lean` (template and substitution); `Spec/DirectT3Text.lean`: a reader of the function, of functions applied to all elements, of energy differences and of statements on whole arrays. The five substitutions are shown to fill the template, and the reader returns the function of C89. Violation: names that contain a placeholder. |
| C93 | iteration over label lists | `Model/Iteration.lean`: objects with a position, a store of objects, uses and programs with loops; `Spec/Iteration.lean`: the meaning without positions. Proved by induction on the program with an invariant on the positions; violations for every object with at least one (two) labels. |
| C94 | SpaceCounter | `Model/SpaceCounter.lean` with the name of the attribute as an argument. Violation for the name in the code; counts, total order and transposition are proved for the attribute `indices_type`. |
| C95 | hashes and sets | `Model/Hashing.lean`: hashes from arbitrary hash functions, python sets. A set is shown by induction to keep one object per value. Violations for mixed classes and for terms with close coefficients. |
| C96 | histories of calls on one Term | `Model/TermObject.lean`: the state a call leaves the receiver in, also when it raises, and programs that call again and again. `C96_fresh_partial`: after the first `simplify` a second one only renames labels, and the canonicalizations do not depend on the names (`Lemmas/TermObject`, `Lemmas/TermRepeat`). `C96_history_partial`: induction over the history with an invariant on the object (`Lemmas/TermRaise`, `Lemmas/TermHistory`). `C96_library`, `C96_library_value` (`Props/LibraryObject.lean`): terms of the library meet the conditions, and no call on them raises. |
| C97 | exceptions leave the value | The same model of objects; every place where `simplify` can raise is a case of `Term.simplifyObj`. The operator is shown to keep its labels, the counters to grow only, and core densities to have the value of deltas. |
| C98 | label lists as text | `Model/Parse.lean`: splitting, stripping, conversion of entries, selection of the class by name. `Spec/Parse.lean` describes the texts by what they list (`ListsNames`), without a parser; `C98_exact` shows that the constructor accepts exactly these texts, by induction over the text. |
| C99 | objects from convertible arguments | The constructors of pairs and tensors with unconverted arguments (`Model/Parse.lean`); C98 and C18 give the exact condition. |
| C100 | histories of calls | `Spec/Program.lean`: expressions, the operators they stand for, and the relation `Computes` between an expression and the lists of terms that calls can return for it. Induction over the history; the terms of a history are `LibraryTerm`s, whose invariant (`Fit`, `Lemmas/LibraryNice.lean`) is preserved by every call: contraction, commutator, combination, copies and conjugates, canonicalization, blocks, excitation and diagonal parts, gradients. |
| C101 | contraction with limits | `Spec/OpenWindow.lean`: a linear map that ignores the strings outside the limits. The contractions of C66 are the allowed ones; the sum over all contractions (Wick, C77) differs from them by strings outside the limits (`Lemmas/OpenWindow.lean`). For nested_commutator_cc in connected mode the limits are widened, which adds contractions that the map does not see, and C80 is used (`Props/NestedWindow.lean`). |
| C102 | `bch_cc_rsc` with limits | A linear map that keeps the strings within the limits and drops the others, applied at each level (`truncatedCommutator`). C101 for each level, and the returned terms are within the limits. |
| C103 | terms without operators | Cumulants are defined from expectation values by recursion over the first operator (`IsCumulantOf`); the products are sums over contractions of normal-ordered strings, so their expectation values follow by induction over the length (`Lemmas/Cumulants.lean`). Example with a two-body cumulant. |
| C104 | spin cases, then printed code | `Spec/SpinCode.lean`: the operator of the spin blocks of the arrays, where a block counts one over the number of permutations that keep its spins. C69 is applied to operators divided by these numbers; the canonical spin cases of library terms can be printed (`Lemmas/SpinCode.lean`) and add up to the terms (C59). |
| C105 | all computations, repeated with another schedule | Two runs with other numbers of processes and processors and other iteration orders of sets (every schedule of the workers is a run). The contractions of library terms have no diagonal labels, so `simplify` does not iterate over sets, and the blocks of the Hamiltonian are sorted by `combine_terms`. One commutator by C50; terms made by the constructor are equal when their visible parts are; then induction over the loops and levels. Two expansions of the same element of the free algebra are permutations of each other (`Props/Schedule.lean`). |
| C106 | operations on terms with two iteration orders of sets | `canonicalize` refuses diagonal labels, and without them `simplify` does not iterate over sets; `overlap.pop()` of `make_excitation` pops from a set with one element; the loops over spaces give permuted rows (`Props/SetOrder.lean`). |
| C107 | sums of returned terms, conjugated | `Spec/Hermitian.lean`: conjugation is a linear map that reverses products and exchanges the creators and annihilators of normal-ordered strings. The conjugate of the generator is its negative, so truncated nested commutators (C102, C81, C80) are their own conjugates (`Props/Hermitian.lean`); the example is the transposition of 4x4 matrices. |
| C108 | tensors of returned terms | `Spec/Linked.lean`. A contraction that connects all operators (C32) joins the labels of the factors; deltas are removed only after their labels are made equal, relabelling and changes of notation keep labels together (`Lemmas/Linked.lean`), then induction over the loops and levels (`Props/Linked.lean`). |
| C109 | tensors of returned terms | `Spec/ProperFactors.lean`. Contraction adds densities only, `simplify` removes only deltas, canonicalization is a change of notation (C22) that keeps class, name and number of labels (`Lemmas/ProperFactors.lean`); returned terms are not void; then induction over the loops and levels (`Props/ProperFactors.lean`). |
| C110 | operators of the terms of commutators | `Spec/Rank.lean`. No operator is lost (C34), every connected contraction of two strings uses at least two, and `simplify` and canonicalization keep the labels of the string up to notation (`Lemmas/Rank.lean`); then induction over the levels (`Props/Rank.lean`). |
| C111 | bch_cc_rsc, nested_commutator_cc, amplitudes | As C110 with the operators that lower the excitation (`Spec/Rank.lean`, `nLowering`): every contraction of strings of core and virtual labels uses one, amplitudes have none, the Hamiltonian at most four (`Props/Rank.lean`). For products of all factors (`nested_commutator_cc`): connectedness gives every amplitude a contraction with the Hamiltonian, different amplitudes use different operators of it (`Lemmas/RankNested.lean`). |
| C112 | bch_cc_rsc and nested_commutator_cc as a whole | `exp` is Mathlib's `IsNilpotent.exp`. T is nilpotent because it lies in the span of words over finitely many anticommuting operators; exp(-T) H exp(T) is the series of nested commutators; the fifth commutator vanishes because C111 makes level 5 empty and C79 says what it stands for (`Lemmas/Similarity.lean`, `Props/Similarity.lean`). Energy from C103, printed code from C88, nested_commutator_cc from C80. |
| C113 | single_commutator, bch_cc_rsc, nested_commutator_cc | Every contraction of core and virtual labels uses one operator that raises and one that lowers the excitation, and rewriting terms keeps both numbers (`Lemmas/NetExcitation.lean`); induction over the levels with the number of labels of the amplitudes. The energy follows from C79, C103 and C112 with an auxiliary run whose levels 3 and 4 have no terms without operators (`Props/NetExcitation.lean`). For nested_commutator_cc every contraction takes one operator of the Hamiltonian and one of an amplitude, so there are at most four (`Lemmas/NetExcitationNested.lean`). |
| C66, C74, C80 with `for_commutator=True` | connected contractions | the operators are taken as free generators (`MonoidAlgebra R (FreeMonoid (List (Bool × O)))`), so that a sum over connected contractions is a linear function of the uncontracted product; for a nested commutator the rows that leave a factor unconnected, or have no pair contraction, cancel in pairs (`Lemmas/ConnectedRows`, `ConnectedCancel`, `ConnectedAlgebra`), because strings of even length that are contracted with nothing, or only through cumulants, commute with everything; `Lemmas/ConnectedValue` matches the rows with the contractions of the code |

What cannot be expressed: agreement of IEEE floating point results with exact arithmetic, wall-clock behaviour, the
correctness of SymPy's canonicalisation itself, and the actual effect of generated C++ beyond the meaning given to the
`+=` statements in C46.

## 5. Findings (code that violates a property)

Every entry is a theorem with a concrete witness named `C<nn>_violation...` or `..._needed` unless marked (not proved).

* C01: `find_space_label({c, v})` is `p`; `find_space_label({a, A})` is `None`.
* C02: `==` of counters compares raw dictionaries and disagrees with `<=`.
* C05: `Index("g01") == Index("g1")` with different hashes.
* C29: `composite_contractions(target)` without its argument `compatible` raises TypeError.
* C31: the connected search misses contractions of four operators.
* C67: `make_one_body_diagonal` of a term in which a two-body density shares a composite label with the operator returns the vanishing core block as a non-zero off-diagonal term (core created, active annihilated), since `simplify` relabels the core label of the density as active (`C67_violation_density`).
* C80: for that reason `nested_commutator_cc(3, [1], single_reference=True, unitary=True)` with the default `for_commutator=True` does not return the nested commutator: all contractions without open operators are lost, so the contribution to the energy is zero instead of -8/6 in the example of two orbitals (`C80_violation_three_commutators`). `for_commutator=False` gives the right result (`C80_nested_partial`).
* C66, C74: in the same run some product of four operators has connected contractions that `contract_terms` with `for_commutator=True` does not return (`C66_violation_four_operators`), and `nested_commutator_cc` does not return the connected contractions of its products (`C74_violation_three_commutators`). Both follow from C80: with all connected contractions the value of the nested commutator would be right.
* C36: the recursion limit is exceeded from 1000 elementary contractions on.
* C40: `simplify` changes the value for chained deltas, a delta next to a density, a diagonal label, and a two-body cumulant with core labels.
* C43: a vanishing term raises TypeError; the symmetries used for operators that change the particle number are wrong.
* C44: blocks are counted several times when an operator has a diagonal label.
* C46, C60, C70, C72, C73: code generation (missing temporaries, undeclared variables, an unused scale argument, densities without array,
  targets that are overwritten).
* C52: `combine_terms` overwrites its inputs.
* C54: `contract_terms` with fewer than two non-empty operators ignores the limits.
* C56: `sympy_nested_commutator_recursive(0, A, B)` returns `[A, B]`.
* C57: `bch_cc_rsc` expands the Hamiltonian with `single_reference=True` whatever the caller asks for.
* C59, C61: products of deltas only are lost or raise.
* C62: `make_excitation` turns every operator with beta labels into zero.
* C65: `==` of terms uses a tolerance, so `a == b` and `a < b` can both hold and `==` is not transitive.
* C76: `n_process=0` divides by zero; an empty list of levels raises.
* C82: `generate_singlet_adaptation` divides by the number of all arrangements of the operator labels but yields only those that keep the order of the spins: for `H^{a0 A0}_{a1 A1} a^{a1 A1}_{a0 A0}` the result is a fourth of the term.
* C84: `print_terms_latex` puts no `\\` between the last term with one antisymmetrizer and the first with the next in the same environment, so two terms are printed on one row.
* C85: `canonicalize_simple` does not give a canonical form, so `combine_terms` does not add up equal terms after it (`C85_simple_is_not_canonical`).
* C87: `diagonal_hessian_t` replaces labels by position, so a label of the operator at another position of the amplitude is renamed: for `H^{c2}_{c0} T^{c1,c2}_{v0,v1} a^{v0,v1}_{c0,c1}` it returns `H^{c1}_{c0}`. A term that is only an amplitude raises `ValueError`.
* C88: a `HoleDensity` has the default name `C`, so its array is printed as `C1`, which is also the target array of one-body terms. With `expand_hole=False` the generated function sets the hole density to zero before reading it, and printed statements read what earlier statements have written.
* C89: the template of `save_direct_t3` uses `T3`, but only the arrays of the factors become parameters. For terms made of `H`, `T1` and `T2` only (as in the repository's own test, which contracts with levels 1 and 2) the function uses an array it does not declare.
* C90: a term without tensors prints `C0 += 1.0 * ;`, which is not C++; a tensor with labels on one side only prints `X["a0,"]`, a list with a dangling comma.
* C91: for an empty list of terms the parameter list of the written function and of its declaration ends with a comma.
* C92: `multi_gsub` replaces the placeholders one after the other, also inside names that were put in before: for a function called `FUNC_VARIABLES` its name is replaced by the parameter list.
* C93: an `Indices` object is its own iterator. In a loop over an object, a second loop over it, its hash or its LaTeX form ends the outer loop; `next(iter(x))` in a loop over `x` makes it endless.
* C94: `SpaceCounter(t1, t2)` always raises `AttributeError` (or `TypeError`): it reads `type_of_indices`, but the attribute is called `indices_type`.
* C95: a set cannot hold label lists of different classes with the same labels (`TypeError`), and two terms that compare equal can have different hashes, e.g. with the coefficients 1 and 1 + 8.9e-10.
* C96: after `canonicalize` has found a term to vanish, the next call on the same object raises `ValueError` (the list of tensors is empty, which `_replace_tensors_indices` rejects); with densities that share a label the second call can give another term.
* C97: `simplify` assigns the relabelled operator before it relabels the tensors. If a density shares a label with the operator and the tensors cannot be relabelled, the exception leaves a term with another value.
* C98: `Indices.make_indices("g0,", "so")` raises `IndexError`: `Index("")` fails at `name[0]` and the handler catches only `ValueError` and `TypeError`. A text of blanks fails in the same way, the empty text gives the empty list.
* C99: the constructor of a pair compares the types of the arguments instead of the converted labels, so a text for the upper and a list for the lower labels raise `TypeError` (`C99_violation_mixed`).
* C106: `expand_composite_indices` numbers the labels that are not labels of the operator in the order in which Python iterates over `self.indices_set` (Term.py:1136-1139): the blocks of a term with two contracted labels of the same space carry other labels with another hash seed (`C106_violation_blocks`). When all labels are labels of the operator the blocks are the same up to order (`C106_blocks_partial`).
* (not proved) `from collections import Iterable` fails on Python 3.10 and later.

## 6. Axioms

`python3 tools/axioms.py` prints the axioms of every theorem listed in MANIFEST.json. All depend on a subset of `propext`,
`Classical.choice` and `Quot.sound`.
