import Verif.Props.Connected

/-!
The search for connected contractions loses contractions of four operators (C31), and `nested_commutator_cc` with its default `for_commutator=True`
loses them as well: a counterexample to C80 with three commutators in the unitary formalism.
-/

namespace Dsrg

/-- The options of the counterexample: one-body densities, no limit on the number of open operators that matters. -/
def lostOptions : Options := { maxCu := 1, maxOpen := 8, minOpen := 0, forCommutator := true, expandHole := true, nProcess := 1, hermitian := true }

/-- The categories chosen by the search for the product of the operators `w`. -/
def chosenFor (w : List OpName) : List (List (List Nat)) :=
  match nestedFactors true 0 w with
  | .error _ => []
  | .ok terms =>
    let ops := terms.map Term.sqOp
    match elementaryCategorized ops (checkMaxCu ops 1) with
    | .error _ => []
    | .ok d => macroSearch ((nOperators ops : Nat) - 8) ((nOperators ops : Nat) - 0) (sortCategories (d.map Prod.fst))
        (ops.map fun op => op.upper.size) (ops.map fun op => op.lower.size)

/-- The products of one Hamiltonian of one body and three amplitudes of one body. -/
def fourBodyWords : List (List OpName) :=
  let amps : List (List OpName) := [.T 1, .X 1].flatMap fun a => [.T 1, .X 1].flatMap fun b => [.T 1, .X 1].map fun c => [a, b, c]
  amps.flatMap fun w => [0, 1, 2, 3].map fun k => w.take k ++ OpName.H 1 :: w.drop k

theorem chosenFor_three : ∀ w ∈ fourBodyWords, ∀ l ∈ chosenFor w, l.length = 3 ∧ ∀ c ∈ l, c.length = 2 := by decide +kernel

theorem nestedWords_four : ∀ w ∈ (nestedWords [OpName.H 1, OpName.H 2] (ampSymbols [1] true) 3).map Prod.snd, w ∈ fourBodyWords ∨ OpName.H 2 ∈ w := by
  decide +kernel

/-- The expectation value of a string of two normal-ordered operators vanishes. -/
theorem fockSpace_open (u l : List (Fin 2)) (h : u.length + l.length = 2) : fockSpace.op u l 1 1 = 0 := by
  match u, l, h with
  | [], [], h | [], [_], h | [_], [], h => simp at h
  | [], _ :: _ :: _ :: _, h | [_], _ :: _ :: _, h | [_, _], _ :: _, h | _ :: _ :: _ :: _, _, h => simp at h <;> omega
  | [], [a, b], _ => revert a b; decide +kernel
  | [a], [b], _ => revert a b; decide +kernel
  | [a, b], [], _ => revert a b; decide +kernel

theorem sizes_four : ∀ w ∈ fourBodyWords, (match nestedFactors true 0 w with
    | .error _ => 0
    | .ok terms => nOperators (terms.map Term.sqOp)) = 8 := by decide +kernel

/-- The contractions that are found leave two operators. -/
theorem found_open {w : List OpName} (hw : w ∈ fourBodyWords) {terms : List Term} (ht : nestedFactors true 0 w = .ok terms)
    (hG : GoodOps (terms.map Term.sqOp)) {ts : List Tensor} (hf : FoundChoice (terms.map Term.sqOp) 1 8 0 ts) :
    (openOp (terms.map Term.sqOp) ts).upper.list.length + (openOp (terms.map Term.sqOp) ts).lower.list.length = 2 := by
  set ops := terms.map Term.sqOp with hops
  obtain ⟨h1, h2, h3, d, hd, h0, l, hl, hp⟩ := hf
  have hc : l ∈ chosenFor w := by
    unfold chosenFor
    rw [ht]
    simp only [← hops, hd]
    exact hl
  obtain ⟨hlen, hc2⟩ := chosenFor_three w hw l hc
  have h8 := sizes_four w hw
  rw [ht] at h8
  simp only [← hops] at h8
  have hts : ts.length = 3 := by rw [← hlen, hp.length_eq, List.length_map]
  have hone : ∀ t ∈ ts, (contractionWord t).length = 2 := by
    intro t ht
    have := hc2 _ (hp.symm.subset (List.mem_map_of_mem ht))
    unfold ownersOf at this
    rw [List.length_append, List.length_map, List.length_map] at this
    unfold contractionWord
    split <;> simp <;> omega
  have hsum : (ts.flatMap contractionWord).length = 6 := by
    rw [List.length_flatMap, List.map_congr_left hone]
    simp [hts]
  have hA : ProperSet ops ts := ⟨fun t ht => proper_of_elementary hG (h2 t ht), h3⟩
  have hres := (isResult_of_proper hG hA).word.length_eq
  rw [List.length_append, hsum] at hres
  have hprod : (productWord ops).length = nOperators ops := by
    unfold productWord nOperators
    rw [List.length_flatMap]
    congr 1
    refine List.map_congr_left fun op _ => ?_
    simp [stringWord, Indices.size]
  rw [hprod, h8] at hres
  have : (stringWord (openOp ops ts)).length = (openOp ops ts).upper.list.length + (openOp ops ts).lower.list.length := by simp [stringWord]
  omega

/-- The two-body part of the Hamiltonian is zero in the counterexample. -/
theorem pval_two_body {w : List OpName} {terms : List Term} (h : List.Forall₂ (IsFactor true) w terms) (h2 : OpName.H 2 ∈ w) (σ : Index → Fin 2) :
    fockSpace.pval σ (allTensors terms) = 0 := by
  obtain ⟨t, ht, hf⟩ := forall₂_mem_left h h2
  obtain ⟨t', x, k1, k2, -, -, k5, k6, -⟩ := C38_hamiltonian 2 0 .spinOrbital
  have e : t = t' := by
    have : hamiltonianOperator 2 0 .spinOrbital = .ok t := hf
    rw [this] at k1
    exact Except.ok.inj k1
  subst e
  unfold Interp.pval
  refine List.prod_eq_zero (List.mem_map.2 ⟨x, ?_, ?_⟩)
  · unfold allTensors
    exact List.mem_flatMap.2 ⟨t, ht, by rw [k2]; simp⟩
  · unfold Interp.tval
    exact meanField_tensor x.cls x.name _ _ (by rw [k5]; simp [length_consecutive])

/-- The expectation value of what `contract_terms` returns for a product of four operators vanishes. -/
theorem lost_word {m : Machine} (hcanon : CanonContract m.canon) (hord : m.ord.Lawful) {w : List OpName}
    (hw : w ∈ (nestedWords [OpName.H 1, OpName.H 2] (ampSymbols [1] true) 3).map Prod.snd) {terms : List Term} (ht : nestedFactors true 0 w = .ok terms)
    (g1 : ∀ t ∈ terms, GoodTerm t) (g2 : terms.Pairwise DisjointLabels) (g3 : properOps terms = terms.map Term.sqOp) (g4 : terms.length = 4)
    {scale : ℚ} {out : List Term} (hn : ¬ Negligible (scale * (terms.map Term.coeff).prod)) (hr : ContractRun m lostOptions terms scale out) :
    fockSpace.listValue coreVirtual out 1 1 = 0 := by
  obtain ⟨w1, w2, w3, w4, -⟩ := fockSpace_world
  have ho := ordinary_of_good g1 g2
  have hfac := nestedFactors_isFactor ht
  have e : productOps terms = terms.map Term.sqOp := by rw [← g3, properOps_eq]
  have hG := goodOps_productOps ho.ops
  obtain ⟨batches, hb, hv⟩ := hr.value hcanon hord ho (contractible_of_good g1 g2) (by rw [productCoeff_eq]; exact hn)
    (by rw [e, List.length_map, g4]; omega) w1 w2 w3 w4
  unfold Interp.listValue
  rw [hv]
  rcases nestedWords_four w hw with h4 | h4
  · unfold ContractionsRun at hb
    rw [if_pos (show lostOptions.forCommutator = true from rfl)] at hb
    obtain ⟨cs, -, h3, -, hperm, hfound⟩ := connected_spec' hG hb
    have hA : ∀ c ∈ cs, Allowed (productOps terms) 1 8 0 c := fun c hc => (h3 c ⟨c, hc, List.Perm.refl _⟩).1
    simp only [rowsValue_perm fockSpace _ hperm]
    rw [contraction_rows_value ho _ _ w2 hA]
    have key : ∀ l : List (Matrix (Fin 4) (Fin 4) ℚ), (∀ x ∈ l, x 1 1 = 0) → l.sum 1 1 = 0 := by
      intro l hl
      induction l with
      | nil => rfl
      | cons a l ih => rw [List.sum_cons, Matrix.add_apply, hl a (by simp), ih fun x hx => hl x (by simp [hx]), add_zero]
    refine key _ fun x hx => ?_
    obtain ⟨c, hc, rfl⟩ := List.mem_map.1 hx
    have hopen := found_open h4 ht (e ▸ hG) (e ▸ (hfound c).1 ⟨c, hc, List.Perm.refl _⟩)
    rw [← e] at hopen
    unfold Interp.value
    rw [Matrix.smul_apply, Matrix.sum_apply, Finset.sum_eq_zero, smul_zero]
    intro σ _
    rw [Matrix.smul_apply]
    unfold Interp.opval
    rw [fockSpace_open _ _ (by rw [List.length_map, List.length_map]; exact hopen), smul_zero]
  · simp only [pval_two_body hfac h4, zero_smul, Finset.sum_const_zero, smul_zero]
    rfl

/-- C80 is violated by the default `for_commutator=True` from three commutators on in the unitary formalism: every run of
`nested_commutator_cc(3, [1], unitary=True, single_reference=True)` returns terms that do not add up to the nested commutator, for orbitals, tensors
and operators with all the properties assumed in C80.  The expectation value of the terms is zero, that of the nested commutator is not: all
contractions without open operators are lost. -/
theorem C80_violation_three_commutators :
    (∀ (expansion : List (ℤ × List OpName)) (calls : List (List Term × ℚ)) (out : List Term),
      NestedRun exMachine lostOptions 3 [1] true true expansion calls out →
      (out.map fun t => fockSpace.value coreVirtual t.coeff t.tensors t.sqOp).sum ≠
        algebraMap ℚ ℚ (1 / (Nat.factorial 3 : ℚ)) • nestedCommutator
          (fockSpace.hamiltonianPart (Finset.univ.filter fun o => coreVirtual.spin o = false) 1 +
            fockSpace.hamiltonianPart (Finset.univ.filter fun o => coreVirtual.spin o = false) 2)
          (fockSpace.generator coreVirtual true true [1]) 3) ∧
    (∃ expansion calls out, NestedRun exMachine lostOptions 3 [1] true true expansion calls out) ∧
    CanonContract exMachine.canon ∧ exMachine.ord.Lawful ∧ lostOptions.forCommutator = true ∧ fockSpace.CumulantsUpTo lostOptions.maxCu ∧
    lostOptions.minOpen ≤ 0 ∧ ((4 + 2 * 1 * 3 : Nat) : Int) ≤ lostOptions.maxOpen + 2 ∧
    fockSpace.SlotSymmetric true lostOptions.hermitian ∧ fockSpace.Physical coreVirtual ∧ fockSpace.ActiveCumulants coreVirtual ∧
    fockSpace.NoActiveAmplitudes coreVirtual ∧ Fermions twoFermions ∧ fockSpace.NormalOrdered twoFermions := by
  obtain ⟨c, l, p⟩ := exMachine_ok
  obtain ⟨w1, w2, w3, w4, w5⟩ := fockSpace_world
  refine ⟨fun expansion calls out h hval => ?_, ?_, c, l, rfl, w5, by decide, by decide, w1, w2, w3, w4, twoFermions_fermions, fockSpace_normalOrdered⟩
  · obtain ⟨W, hW, hsum⟩ := nestedRun_value c l (by omega) (K := 1) (by simp) (by decide) h coreVirtual fockSpace (P := fun _ v => v 1 1 = 0)
      fun w hw terms ht g1 g2 g3 g4 => ⟨⟨0, rfl⟩, fun scale out hs hn hr =>
        ⟨(algebraMap ℚ ℚ scale⁻¹) • fockSpace.listValue coreVirtual out,
          by rw [Matrix.smul_apply, lost_word c l hw ht g1 g2 g3 g4 hn hr, smul_zero],
          by rw [smul_smul, ← map_mul, mul_inv_cancel₀ hs, map_one, one_smul]⟩⟩
    have h0 : fockSpace.listValue coreVirtual out 1 1 = 0 := by
      rw [hsum, Matrix.smul_apply]
      have key : ∀ l : List (ℤ × List OpName), (∀ p ∈ l, (W p.2) 1 1 = 0) → (l.map fun p => p.1 • W p.2).sum 1 1 = 0 := by
        intro l hl
        induction l with
        | nil => rfl
        | cons a l ih =>
          rw [List.map_cons, List.sum_cons, Matrix.add_apply, Matrix.smul_apply, hl a (by simp), ih fun x hx => hl x (by simp [hx]), smul_zero, add_zero]
      rw [key _ fun p hp => hW p.2 (List.mem_map_of_mem hp), smul_zero]
    unfold Interp.listValue at h0
    rw [hval] at h0
    revert h0
    decide +kernel
  · obtain ⟨-, ⟨e, he⟩, hex⟩ := C76_nested_commutator_cc _ c l p lostOptions (by decide) 3 [1] (by simp) true true
    obtain ⟨calls, out, h⟩ := hex e he
    exact ⟨e, calls, out, h⟩

/-- C74 is violated by `for_commutator=True` from three commutators on in the unitary formalism: whatever allowed connected contractions one takes for
the products of the expansion, the terms returned do not add up to the weighted sum of them. -/
theorem C74_violation_three_commutators :
    (∀ (expansion : List (ℤ × List OpName)) (calls : List (List Term × ℚ)) (out : List Term),
      NestedRun exMachine lostOptions 3 [1] true true expansion calls out →
      ∀ W : List OpName → Matrix (Fin 4) (Fin 4) ℚ,
        (∀ w ∈ (nestedWords [.H 1, .H 2] (ampSymbols [1] true) 3).map Prod.snd,
          IsConnectedWordValue fockSpace coreVirtual true lostOptions.maxCu lostOptions.maxOpen lostOptions.minOpen w (W w)) →
        (out.map fun t => fockSpace.value coreVirtual t.coeff t.tensors t.sqOp).sum ≠
          (algebraMap ℚ ℚ (1 / (Nat.factorial 3 : ℚ))) • ((nestedWords [.H 1, .H 2] (ampSymbols [1] true) 3).map fun p => p.1 • W p.2).sum) ∧
    (∃ expansion calls out, NestedRun exMachine lostOptions 3 [1] true true expansion calls out) ∧
    CanonContract exMachine.canon ∧ exMachine.ord.Lawful ∧ lostOptions.forCommutator = true ∧
    fockSpace.SlotSymmetric true lostOptions.hermitian ∧ fockSpace.Physical coreVirtual ∧ fockSpace.ActiveCumulants coreVirtual ∧
    fockSpace.NoActiveAmplitudes coreVirtual := by
  obtain ⟨hne, hex, c, l, f, w5, hmin, hmax, w1, w2, w3, w4, hfer, hno⟩ := C80_violation_three_commutators
  refine ⟨fun expansion calls out h W hW hval => hne expansion calls out h ?_, hex, c, l, f, w1, w2, w3, w4⟩
  rw [hval, connectedWords_nested (by omega) (K := 1) (by simp) w1 w2 w3 hfer hno w5 hmin hmax hW]

/-- C66 is violated by `for_commutator=True` for products of four operators: one of the products that `nested_commutator_cc` contracts, with ordinary
factors, comes back as terms that do not add up to its connected contractions. -/
theorem C66_violation_four_operators :
    ∃ (terms : List Term) (scale : ℚ) (out : List Term), terms.length = 4 ∧ OrdinaryFactors terms ∧ ContractibleFactors terms ∧
      (properOps terms).length = 4 ∧ ¬ Negligible (scale * (terms.map Term.coeff).prod) ∧ ContractRun exMachine lostOptions terms scale out ∧
      ¬ IsConnectedContraction fockSpace coreVirtual (scale * (terms.map Term.coeff).prod) (allTensors terms) (properOps terms)
        lostOptions.maxCu lostOptions.maxOpen lostOptions.minOpen (out.map fun t => fockSpace.value coreVirtual t.coeff t.tensors t.sqOp).sum := by
  obtain ⟨hne, ⟨e, calls, out, h⟩, c, l, f, w1, w2, w3, w4⟩ := C74_violation_three_commutators
  by_contra hcon
  push Not at hcon
  obtain ⟨W, hW, hsum⟩ := nestedRun_connected c l (by omega) (K := 1) (by simp) (by decide) h w2
    fun w hw terms hfac ho hct g3 g4 scale out hn hr => hcon terms scale out g4 ho hct (by rw [g3, List.length_map, g4]) hn hr
  exact hne e calls out h W hW hsum

end Dsrg
