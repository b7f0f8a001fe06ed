import Verif.Lemmas.DirectT3Text
import Verif.Props.DirectT3
import Verif.Props.AmbitText

/-!
C92: the file written by `save_direct_t3`.
-/

namespace Dsrg

/-! ### C92 The file of save_direct_t3 -/

/-- The file is one member function of the class, called `<name>_direct_t3`, and it reads as the function of C89.  The names that are put in the template must
not contain its placeholders. -/
theorem C92_file (limit : ℚ → Nat → ℚ) (hl : ClosestFraction limit) (terms : List Term)
    (hp : ∀ t ∈ terms, Printable t ∧ Readable t ∧ t.coeff.den ≤ 1000000000) (hx : ∀ t ∈ terms, ∀ x ∈ t.tensors, NoPlaceholder x.arrayName)
    (func ns : PyStr) (hfunc : CppName func) (hns : CppName ns) (hpf : NoPlaceholder func) (hpn : NoPlaceholder ns) (b : Buckets)
    (hb : categorizeContractions terms = .ok b) (e : List Space × List (List (List (List Index)) × List Term)) (he : e ∈ b) (f : DirectT3)
    (hf : directT3 e.2 = .ok f) :
    ∃ text g, directT3Text limit e.2 func ns = .ok text ∧ readFile text = some (includePath ns, g) ∧ g.scope = ns ∧
      g.name = func ++ ['_', 'd', 'i', 'r', 'e', 'c', 't', '_', 't', '3'] ∧ readDirectT3 g = some f := by
  obtain ⟨-, -, p3, -⟩ := C58_partition terms b hb
  have hmem : ∀ x ∈ e.2, ∀ t ∈ x.2, t ∈ terms := fun x hx t ht => (List.mem_filter.1 ((((p3 e he).2 x hx).2.2).mem_iff.1 ht)).1
  exact directT3_text hl hfunc hns hpf hpn (fun x hx => ((p3 e he).2 x hx).1) (fun x hx t ht => hp t (hmem x hx t ht))
    (fun x hx' t ht => hx t (hmem x hx' t ht)) hf

section
variable {O R M : Type} [Fintype O] [DecidableEq O] [Inhabited O] [CommRing R] [Algebra ℚ R] [AddCommGroup M] [Module R M]

/-- The function read from the file computes the amplitude equation `T3 = R(Δ) (C + Δ T3)` of the DSRG, where `C` is the array of the sum of the terms of the
block `cccvvv` (C89). -/
theorem C92_runs (limit : ℚ → Nat → ℚ) (hl : ClosestFraction limit) (orb : Orbitals O) (I : Interp O R M) (hI : I.Antisymmetric) (hH : I.Hermitian)
    (terms : List Term) (hp : ∀ t ∈ terms, Printable t ∧ Readable t ∧ t.coeff.den ≤ 1000000000)
    (hx : ∀ t ∈ terms, ∀ x ∈ t.tensors, NoPlaceholder x.arrayName ∧ ∀ n, x.arrayName ≠ 'C' :: natStr n)
    (func ns : PyStr) (hfunc : CppName func) (hns : CppName ns) (hpf : NoPlaceholder func) (hpn : NoPlaceholder ns) (b : Buckets)
    (hb : categorizeContractions terms = .ok b) (pt : List (List (List (List Index)) × List Term)) (he : (tripleBlock, pt) ∈ b) (f : DirectT3)
    (hf : directT3 pt = .ok f) (h3 : ∃ t ∈ terms, (t.sqOp.lower.list ++ t.sqOp.upper.list).map Index.space = tripleBlock ∧
      ∃ x ∈ t.tensors, x.arrayName = ['T', '3'])
    (s : Store O R) (hs : ∀ t ∈ terms, ArraysHold s I t.tensors) (Fd : O → R) (ren dmp : R → R) (hr : ∀ x, ren x * x = 1 - dmp x) :
    ∃ text g prog, directT3Text limit pt func ns = .ok text ∧ readFile text = some (includePath ns, g) ∧ readDirectT3 g = some prog ∧
      ∃ C : List O → R,
        I.operator 3 3 C = ((terms.filter fun t => decide ((t.sqOp.lower.list ++ t.sqOp.upper.list).map Index.space = tripleBlock)).map fun t =>
          algebraMap ℚ R ((spinPermutations t.sqOp.upper.list * spinPermutations t.sqOp.lower.list : ℕ) : ℚ) •
            I.value orb t.coeff t.tensors t.sqOp).sum ∧
        ∀ i j k a b c : O, IsTriple orb [i, j, k, a, b, c] → ∀ Δ : R, Δ = Fd i + Fd j + Fd k - Fd a - Fd b - Fd c →
          (prog.run orb Fd ren dmp s).1 ['T', '3'] [i, j, k, a, b, c] = ren Δ * (C [i, j, k, a, b, c] + Δ * s ['T', '3'] [i, j, k, a, b, c]) := by
  obtain ⟨text, g, h1, h2, -, -, h5⟩ := C92_file limit hl terms hp (fun t ht x hx' => (hx t ht x hx').1) func ns hfunc hns hpf hpn b hb _ he f hf
  have h3' : t3Name ∈ f.params := by
    obtain ⟨t, ht, h, x, hx', h'⟩ := h3
    have hperm := block_terms (fun t ht => (hp t ht).1) hb he
    exact ((directT3_ok hf).1 _).2 ⟨t, hperm.mem_iff.2 (List.mem_filter.2 ⟨ht, decide_eq_true h⟩), x, hx', h'.symm⟩
  obtain ⟨C, c1, c2⟩ := C89_dsrg orb I hI hH terms (fun t ht => (hp t ht).1) (fun t ht x hx' => (hx t ht x hx').2) b hb pt he f hf h3' s hs Fd ren dmp hr
  exact ⟨text, g, f, h1, h2, h5, C, c1, fun i j k a b c h Δ hΔ => (c2 i j k a b c h Δ hΔ).1⟩

end

/-- The placeholders are replaced one after the other, also in the names that were put in before: for a function called `FUNC_VARIABLES` its name is
replaced by the parameters, and the file cannot be read. -/
theorem C92_violation_placeholder : CppName variablesKey ∧ ¬ NoPlaceholder variablesKey ∧ ∃ t,
    Term.make [soTensor .hamiltonian 'H' 0 [lab .v 3] [lab .v 0], soTensor .cluster 'T' 1 [lab .c 0, lab .c 1, lab .c 2] [lab .v 1, lab .v 2, lab .v 3]]
      (soOp [lab .v 0, lab .v 1, lab .v 2] [lab .c 0, lab .c 1, lab .c 2]) (1 / 12) = .ok t ∧
    ∃ b, categorizeContractions [t] = .ok b ∧ ∃ pt, (tripleBlock, pt) ∈ b ∧ (∃ f, directT3 pt = .ok f) ∧
      ∃ text, directT3Text (fun x _ => x) pt variablesKey ['N'] = .ok text ∧ readFile text = none := by
  refine ⟨by unfold CppName; decide, by decide, _, rfl, _, rfl, _, List.mem_singleton.2 rfl,
    (ok_with (fun _ => True) (by decide +kernel)).imp fun _ h => h.1, ok_with _ (by decide +kernel)⟩

/-- The term of `C89_example` meets the hypotheses.  The file is read as a function with the parameters `H1` and `T3`, five statements for the permutations of
the term, and the six statements of the template. -/
theorem C92_example : NoPlaceholder ['f'] ∧ NoPlaceholder ['N'] ∧ ∃ t,
    Term.make [soTensor .hamiltonian 'H' 0 [lab .v 3] [lab .v 0], soTensor .cluster 'T' 1 [lab .c 0, lab .c 1, lab .c 2] [lab .v 1, lab .v 2, lab .v 3]]
      (soOp [lab .v 0, lab .v 1, lab .v 2] [lab .c 0, lab .c 1, lab .c 2]) (1 / 12) = .ok t ∧
    (Printable t ∧ Readable t ∧ t.coeff.den ≤ 1000000000) ∧ (∀ x ∈ t.tensors, NoPlaceholder x.arrayName) ∧
    ∃ b, categorizeContractions [t] = .ok b ∧ ∃ pt, (tripleBlock, pt) ∈ b ∧ (∃ f, directT3 pt = .ok f ∧ t3Name ∈ f.params) ∧
      ∃ text, directT3Text (fun x _ => x) pt ['f'] ['N'] = .ok text ∧
        (((readFile text).bind fun g => readDirectT3 g.2).map fun f => (f.params, f.body.length, f.update.length)) = some ([['H', '1'], ['T', '3']], 5, 6) := by
  refine ⟨by decide, by decide, _, rfl, ⟨printable_make [soTensor .hamiltonian 'H' 0 [lab .v 3] [lab .v 0],
      soTensor .cluster 'T' 1 [lab .c 0, lab .c 1, lab .c 2] [lab .v 1, lab .v 2, lab .v 3]]
      (soOp [lab .v 0, lab .v 1, lab .v 2] [lab .c 0, lab .c 1, lab .c 2]) (1 / 12) rfl (by decide +kernel) (by decide +kernel) (by decide +kernel), ?_,
      by decide +kernel⟩, by decide +kernel, _, rfl, _, List.mem_singleton.2 rfl, ok_with _ (by decide +kernel), ok_with _ (by decide +kernel)⟩
  unfold Readable CppName
  decide +kernel

end Dsrg
