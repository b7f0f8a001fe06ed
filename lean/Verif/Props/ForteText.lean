import Verif.Lemmas.ForteFiles
import Verif.Props.AmbitText

/-!
C91: the files written by `save_terms_ambit_functions` are C++ files that can be read, and their functions are the functions of C69-C72.
-/

namespace Dsrg

/-! ### C91 The generated files -/

/-- The files are different files.  Read as a program they are the function of `forteMain` (C69-C72).  All but the last hold one member function
of the class each and include its header; their names differ; and the last file declares exactly these functions with the same parameters. -/
theorem C91_files (limit : ℚ → Nat → ℚ) (hl : ClosestFraction limit) (terms : List Term) (hne : terms ≠ [])
    (hp : ∀ t ∈ terms, Printable t ∧ Readable t ∧ t.coeff.den ≤ 1000000000) (func ns dir : PyStr) (hfunc : CppName func) (hns : CppName ns)
    (dag destroyH : Bool) (f : MainFunction) (hf : forteMain terms dag destroyH = .ok f) :
    ∃ files header, forteFiles limit terms func ns dir dag destroyH = .ok (files ++ [header]) ∧ ((files ++ [header]).map Prod.fst).Nodup ∧
      readProject func (files ++ [header]) = some f ∧
      ∃ fns : List CppFunction, files.map (fun x => readFile x.2) = fns.map (fun g => some (includePath ns, g)) ∧ (∀ g ∈ fns, g.scope = ns) ∧
        (fns.map CppFunction.name).Nodup ∧ ∃ decls, readHeader header.2 = some decls ∧ decls.Perm (fns.map fun g => (g.name, g.params)) :=
  forteFiles_ok hl hne hp hfunc hns hf

section
variable {O R M : Type} [Fintype O] [DecidableEq O] [Inhabited O] [CommRing R] [Algebra ℚ R] [AddCommGroup M] [Module R M]

/-- Running the program read from the files: each target array holds the sum of the terms of its rank, and no other array changes. -/
theorem C91_runs (limit : ℚ → Nat → ℚ) (hl : ClosestFraction limit) (orb : Orbitals O) (I : Interp O R M) (hI : I.Antisymmetric) (hH : I.Hermitian)
    (s : Store O R) (terms : List Term) (hne : terms ≠ []) (hp : ∀ t ∈ terms, Printable t ∧ Readable t ∧ t.coeff.den ≤ 1000000000)
    (hs : ∀ t ∈ terms, ArraysHold s I t.tensors) (hx : ∀ t ∈ terms, ∀ x ∈ t.tensors, ∀ n, x.arrayName ≠ 'C' :: natStr n)
    (func ns dir : PyStr) (hfunc : CppName func) (hns : CppName ns) (destroyH : Bool) (f : MainFunction) (hf : forteMain terms false destroyH = .ok f)
    (factor : R) :
    ∃ files prog, forteFiles limit terms func ns dir false destroyH = .ok files ∧ readProject func files = some prog ∧
      (∀ n, (∃ t ∈ terms, t.sqOp.lower.list.length = n) →
        I.operator n n (prog.run orb factor s ('C' :: natStr n)) =
          ((terms.filter fun t => decide (t.sqOp.lower.list.length = n)).map fun t =>
            algebraMap ℚ R ((spinPermutations t.sqOp.upper.list * spinPermutations t.sqOp.lower.list : ℕ) : ℚ) •
              I.value orb t.coeff t.tensors t.sqOp).sum) ∧
      ∀ nm, (∀ t ∈ terms, nm ≠ 'C' :: natStr t.sqOp.lower.list.length) → nm ≠ tempName → prog.run orb factor s nm = s nm := by
  obtain ⟨files, header, h1, -, h2, -⟩ := C91_files limit hl terms hne hp func ns dir hfunc hns false destroyH f hf
  obtain ⟨h3, h4⟩ := C69_function orb I hI hH s terms (fun t ht => (hp t ht).1) hs hx destroyH f hf factor
  exact ⟨_, f, h1, h2, fun n hn => (h3 n hn).1, h4⟩

end

/-- Without terms the parameter list of the written function ends with a comma: neither the function nor its declaration can be read. -/
theorem C91_violation_no_terms : (∃ f, forteMain [] false false = .ok f) ∧
    ∃ files, forteFiles (fun x _ => x) [] ['f'] ['N'] ['d'] false false = .ok files ∧ files.length = 2 ∧
      (∀ x ∈ files, readFile x.2 = none ∧ readHeader x.2 = none) :=
  ⟨(ok_with (fun _ => True) (by decide +kernel)).imp fun _ h => h.1, ok_with _ (by decide +kernel)⟩

/-- Two terms, `-1/3 H^{a0}_{g0} T^{a1}_{g1} a^{g0 g1}_{a0 a1}` and `1/2 H^{a0}_{g0} a^{g0}_{a0}`, meet the hypotheses.  Four files are written; the
function for the second block is read from its text as one statement with the parameters `H1` and `C1`. -/
theorem C91_example : ∃ t1 t2,
    Term.make [soTensor .hamiltonian 'H' 0 [lab .a 0] [lab .g 0], soTensor .cluster 'T' 1 [lab .a 1] [lab .g 1]]
      (soOp [lab .g 0, lab .g 1] [lab .a 0, lab .a 1]) (-1 / 3) = .ok t1 ∧
    Term.make [soTensor .hamiltonian 'H' 0 [lab .a 0] [lab .g 0]] (soOp [lab .g 0] [lab .a 0]) (1 / 2) = .ok t2 ∧
    (∀ t ∈ [t1, t2], Printable t ∧ Readable t ∧ t.coeff.den ≤ 1000000000) ∧ CppName ['f'] ∧ CppName ['N'] ∧
    (∃ f, forteMain [t1, t2] true true = .ok f ∧ f.params = [['H', '1'], ['T', '1'], ['C', '1'], ['C', '2']] ∧ f.body.length = 10) ∧
    ∃ files, forteFiles (fun x _ => x) [t1, t2] ['f'] ['N'] ['d'] true true = .ok files ∧
      files.map Prod.fst = [['d', '/', 'f', '_', 'a', 'a', 'g', 'g', '.', 'c', 'c'], ['d', '/', 'f', '_', 'a', 'g', '.', 'c', 'c'], ['d', '/', 'f', '.', 'c', 'c'],
        ['d', '/', 'f', '_', 'f', 'u', 'n', 'c', 't', 'i', 'o', 'n', 's', '.', 'h']] ∧
      ((files[1]?.bind fun x => readFile x.2).bind fun y => readBlockFunction ['f'] y.2) = some
        { block := [⟨.a, false⟩, ⟨.g, false⟩], tensors := [['H', '1']], target := ['C', '1'], declaresTemp := false,
          body := [.update ⟨['C', '1'], [lab .a 0, lab .g 0]⟩ true (1 / 2) [⟨['H', '1'], [lab .a 0, lab .g 0]⟩]] } ∧
      (readProject ['f'] files).map (fun f => f.body.length) = some 10 := by
  refine ⟨_, _, rfl, rfl, ?_, by unfold CppName; decide, by unfold CppName; decide, ok_with _ (by decide +kernel), ok_with _ (by decide +kernel)⟩
  intro t ht
  rcases List.mem_cons.1 ht with rfl | ht
  · refine ⟨printable_make [soTensor .hamiltonian 'H' 0 [lab .a 0] [lab .g 0], soTensor .cluster 'T' 1 [lab .a 1] [lab .g 1]]
      (soOp [lab .g 0, lab .g 1] [lab .a 0, lab .a 1]) (-1 / 3) rfl (by decide +kernel) (by decide +kernel) (by decide +kernel), ?_, by decide +kernel⟩
    unfold Readable CppName
    decide +kernel
  · rw [List.mem_singleton] at ht
    subst ht
    refine ⟨printable_make [soTensor .hamiltonian 'H' 0 [lab .a 0] [lab .g 0]]
      (soOp [lab .g 0] [lab .a 0]) (1 / 2) rfl (by decide +kernel) (by decide +kernel) (by decide +kernel), ?_, by decide +kernel⟩
    unfold Readable CppName
    decide +kernel

end Dsrg
