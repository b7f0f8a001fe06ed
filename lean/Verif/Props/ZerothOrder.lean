import Verif.Lemmas.ZerothOrder
import Verif.Props.Wick
import Verif.Lemmas.PlainCanon

/-!
Property theorems about the zeroth-order Hamiltonians.
-/

namespace Dsrg

/-! ### C83 The zeroth-order Hamiltonians are the operators they are named after -/

section
variable {O R M : Type} [Fintype O] [DecidableEq O] [Inhabited O] [CommRing R] [Algebra ℚ R] [AddCommGroup M] [Module R M]

/-- `diagonal_fock_operator` returns, and its terms add up to the diagonal blocks of the one-body Hamiltonian. -/
theorem C83_diagonal_fock (canon : List Nat → List (Nat × Nat) → List SlotGroup → Option (List Nat)) (hcanon : CanonContract canon)
    (ord : SetOrder) (hord : ord.Lawful) (singleRef : Bool) :
    ∃ out, diagonalFockOperator canon ord singleRef = .ok out ∧ ∀ (orb : Orbitals O) (I : Interp O R M), I.SlotSymmetric true true → I.Physical orb →
      I.ActiveCumulants orb → I.NoActiveAmplitudes orb →
      (out.map fun t => I.value orb t.coeff t.tensors t.sqOp).sum = I.diagonalFock orb singleRef := by
  obtain ⟨out, h⟩ := diagonalFockOperator_total hcanon hord singleRef
  exact ⟨out, h, fun orb I h1 h2 h3 h4 => diagonalFockOperator_value hcanon hord h orb I h1 h2 h3 h4⟩

/-- `dyall_hamiltonian` returns, and its terms add up to the diagonal blocks of the one-body Hamiltonian and the two-body interaction of the
active electrons. -/
theorem C83_dyall (canon : List Nat → List (Nat × Nat) → List SlotGroup → Option (List Nat)) (hcanon : CanonContract canon)
    (ord : SetOrder) (hord : ord.Lawful) :
    ∃ out, dyallHamiltonian canon ord = .ok out ∧ ∀ (orb : Orbitals O) (I : Interp O R M), I.SlotSymmetric true true → I.Physical orb →
      I.ActiveCumulants orb → I.NoActiveAmplitudes orb →
      (out.map fun t => I.value orb t.coeff t.tensors t.sqOp).sum = I.diagonalFock orb false +
        I.hamiltonianPart (Finset.univ.filter fun o => orb.spin o = false ∧ orb.elem o = .active) 2 := by
  obtain ⟨h1, e1⟩ := diagonalFockOperator_total hcanon hord false
  obtain ⟨v, e2, -⟩ := exists_of_map (x := (do
    let up ← Indices.ofNames .spinOrbital (labelNames ⟨.a, false⟩ 2 2)
    let lo ← Indices.ofNames .spinOrbital (labelNames ⟨.a, false⟩ 0 2)
    let tensor ← Tensor.make .hamiltonian up lo ['H'] 0
    let op ← IndicesPair.make lo up
    Term.make [tensor] op (1 / 4))) (f := fun _ => ()) (b := ()) (by decide +kernel)
  have e3 : dyallHamiltonian canon ord = (do
    let v ← (do
      let up ← Indices.ofNames .spinOrbital (labelNames ⟨.a, false⟩ 2 2)
      let lo ← Indices.ofNames .spinOrbital (labelNames ⟨.a, false⟩ 0 2)
      let tensor ← Tensor.make .hamiltonian up lo ['H'] 0
      let op ← IndicesPair.make lo up
      Term.make [tensor] op (1 / 4))
    let h1 ← diagonalFockOperator canon ord false
    pure (h1 ++ [v])) := by
    unfold dyallHamiltonian diagonalFockOperator
    simp only [bind_assoc]
  refine ⟨h1 ++ [v], ?_, fun orb I a b c d => ?_⟩
  · rw [e3, bind_ok_of e2, bind_ok_of e1]; rfl
  · rw [List.map_append, List.sum_append, diagonalFockOperator_value hcanon hord e1 orb I a b c d, List.map_singleton, List.sum_singleton,
      dyallInteraction_value e2]

/-- `fink_hamiltonian` returns, and its terms add up to the part of the one- and two-body Hamiltonian that does not change how many electrons are
in the core, active and virtual orbitals. -/
theorem C83_fink (canon : List Nat → List (Nat × Nat) → List SlotGroup → Option (List Nat)) (hcanon : CanonContract canon)
    (ord : SetOrder) (hord : ord.Lawful) (singleRef : Bool) :
    ∃ out, finkHamiltonian canon ord singleRef = .ok out ∧ ∀ (orb : Orbitals O) (I : Interp O R M), I.SlotSymmetric true true → I.Physical orb →
      I.ActiveCumulants orb → I.NoActiveAmplitudes orb →
      (out.map fun t => I.value orb t.coeff t.tensors t.sqOp).sum = I.diagonalFock orb singleRef + I.finkInteraction orb singleRef := by
  obtain ⟨h1, e1⟩ := diagonalFockOperator_total hcanon hord singleRef
  obtain ⟨v, -, e2, -⟩ := C38_hamiltonian 2 0 .spinOrbital
  obtain ⟨rows, e3⟩ := hamiltonian_expand_total hord e2 singleRef
  have e4 : finkHamiltonian canon ord singleRef = (do
    let h1 ← diagonalFockOperator canon ord singleRef
    let v ← hamiltonianOperator 2 0 .spinOrbital
    let rows ← v.expandCompositeIndices ord singleRef 0
    pure (h1 ++ rows.filter fun t => sameSpaceCounts t.sqOp)) := by
    unfold finkHamiltonian diagonalFockOperator
    simp only [bind_assoc]
  refine ⟨h1 ++ rows.filter fun t => sameSpaceCounts t.sqOp, ?_, fun orb I a b c d => ?_⟩
  · rw [e4, bind_ok_of e1, bind_ok_of e2, bind_ok_of e3]; rfl
  · rw [List.map_append, List.sum_append, diagonalFockOperator_value hcanon hord e1 orb I a b c d, finkInteraction_value hord e2 e3]

end

/-- The hypotheses of C83 are met, and the lists are not trivial: how many terms they have. -/
theorem C83_example : CanonContract plainCanon ∧ SetOrder.sorted.Lawful ∧
    (fockSpace.SlotSymmetric true true ∧ fockSpace.Physical coreVirtual ∧ fockSpace.ActiveCumulants coreVirtual ∧
      fockSpace.NoActiveAmplitudes coreVirtual) ∧
    (diagonalFockOperator plainCanon SetOrder.sorted false).map List.length = .ok 3 ∧
    (diagonalFockOperator plainCanon SetOrder.sorted true).map List.length = .ok 2 ∧
    (dyallHamiltonian plainCanon SetOrder.sorted).map List.length = .ok 4 ∧
    (finkHamiltonian plainCanon SetOrder.sorted false).map List.length = .ok 18 ∧
    (finkHamiltonian plainCanon SetOrder.sorted true).map List.length = .ok 8 := by
  refine ⟨plainCanon_contract, SetOrder.sorted_lawful, ⟨fockSpace_world.1, fockSpace_world.2.1, fockSpace_world.2.2.1, fockSpace_world.2.2.2.1⟩, ?_⟩
  decide +kernel

end Dsrg
