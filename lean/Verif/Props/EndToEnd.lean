import Verif.Lemmas.Written
import Verif.Props.Commutators
import Verif.Props.Connected
import Verif.Props.Transformation

/-!
Property C88: the code printed for a product, a commutator or a level of the transformed Hamiltonian computes it.
-/

namespace Dsrg

section
variable {O R A : Type} [Fintype O] [DecidableEq O] [Inhabited O] [CommRing R] [Algebra ℚ R] [Ring A] [Algebra R A]

/-- C88 (`contract_terms`): the code printed for the contracted product computes `scale` times the product of the operators.  The conditions are those of
C77, that hole densities are expanded, that the factors have none, and that the arrays that are read hold the tensors. -/
theorem C88_contract_terms (m : Machine) (hcanon : CanonContract m.canon) (hord : m.ord.Lawful) (hcpu : 1 ≤ m.cpus) (o : Options) (hn : 1 ≤ o.nProcess)
    (hf : o.forCommutator = false) (ho : o.expandHole = true) (terms : List Term) (hne : terms ≠ []) (h : ∀ t ∈ terms, LibraryTerm m t)
    (hh : ∀ t ∈ terms, ∀ x ∈ t.tensors, x.cls ≠ .hole) (hd : terms.Pairwise DisjointLabels)
    (scale : ℚ) (hc : ¬ Negligible (scale * (terms.map Term.coeff).prod)) (orb : Orbitals O) (I : Interp O R A)
    (hI : I.Antisymmetric) (hH : I.Hermitian) (hph : I.Physical orb) (hac : I.ActiveCumulants orb) (hna : I.NoActiveAmplitudes orb)
    (field : Bool × O → A) (hfield : Fermions field) (hno : I.NormalOrdered field) (hcu : I.CumulantsUpTo o.maxCu) (hmin : o.minOpen ≤ 0)
    (hmax : (nOperators (terms.map Term.sqOp) : Int) ≤ o.maxOpen) (s : Store O R) (hs : SuppliedArrays s I) :
    (∃ out, ContractRun m o terms scale out) ∧ ∀ out, ContractRun m o terms scale out →
      PrintedCodeComputes orb I s out (algebraMap ℚ R scale • (terms.map fun t => I.value orb t.coeff t.tensors t.sqOp).prod) := by
  have hS : I.SlotSymmetric true o.hermitian := ⟨fun _ => hI, fun h => (nomatch h), fun _ => hH⟩
  obtain ⟨h1, h2⟩ := C77_library m hcanon hord hcpu o hn hf terms hne h hd scale hc orb I hS hph hac hna field hfield hno hcu hmin hmax
  refine ⟨h1, fun out hr => ?_⟩
  rw [← h2 out hr]
  exact writable_computes hI hH hs
    (ContractRun.writable hcanon hord hcpu hn ho hne (fun t ht => (h t ht).writable hcanon hord hcpu (hh t ht)) hd hr)

/-- C88 (`single_commutator`): the code printed for the commutator computes it. -/
theorem C88_single_commutator (m : Machine) (hcanon : CanonContract m.canon) (hord : m.ord.Lawful) (hcpu : 1 ≤ m.cpus) (o : Options) (hn : 1 ≤ o.nProcess)
    (ho : o.expandHole = true) (a b : Term) (ha : LibraryTerm m a) (hb : LibraryTerm m b) (hha : ∀ x ∈ a.tensors, x.cls ≠ .hole)
    (hhb : ∀ x ∈ b.tensors, x.cls ≠ .hole) (hd : DisjointLabels a b) (scale : ℚ)
    (hc : ¬ Negligible (scale * (a.coeff * b.coeff))) (orb : Orbitals O) (I : Interp O R A)
    (hI : I.Antisymmetric) (hH : I.Hermitian) (hph : I.Physical orb) (hac : I.ActiveCumulants orb) (hna : I.NoActiveAmplitudes orb)
    (field : Bool × O → A) (hfield : Fermions field) (hno : I.NormalOrdered field) (hcu : I.CumulantsUpTo o.maxCu) (hmin : o.minOpen ≤ 0)
    (hmax : (nOperators [a.sqOp, b.sqOp] : Int) ≤ o.maxOpen + 2) (s : Store O R) (hs : SuppliedArrays s I) :
    (∃ out, CommutatorRun m o a b scale out) ∧ ∀ out, CommutatorRun m o a b scale out →
      PrintedCodeComputes orb I s out (algebraMap ℚ R scale • (I.value orb a.coeff a.tensors a.sqOp * I.value orb b.coeff b.tensors b.sqOp -
        I.value orb b.coeff b.tensors b.sqOp * I.value orb a.coeff a.tensors a.sqOp)) := by
  have hS : I.SlotSymmetric true o.hermitian := ⟨fun _ => hI, fun h => (nomatch h), fun _ => hH⟩
  obtain ⟨h1, h2⟩ := C78_library m hcanon hord hcpu o hn a b ha hb hd scale hc orb I hS hph hac hna field hfield hno hcu hmin hmax
  refine ⟨h1, fun out hr => ?_⟩
  rw [← h2 out hr]
  exact writable_computes hI hH hs (CommutatorRun.writable hcanon hord hcpu hn ho (ha.writable hcanon hord hcpu hha) (hb.writable hcanon hord hcpu hhb) hd hr)

/-- C88 (`linear_commutator`): the code printed for the commutator of two sums of terms computes it; hole densities are always expanded. -/
theorem C88_linear_commutator (m : Machine) (hcanon : CanonContract m.canon) (hord : m.ord.Lawful) (hcpu : 1 ≤ m.cpus) (o : Options) (hn : 1 ≤ o.nProcess)
    (lefts rights : List Term) (hl : ∀ l ∈ lefts, LibraryTerm m l) (hr : ∀ r ∈ rights, LibraryTerm m r)
    (hhl : ∀ l ∈ lefts, ∀ x ∈ l.tensors, x.cls ≠ .hole) (hhr : ∀ r ∈ rights, ∀ x ∈ r.tensors, x.cls ≠ .hole)
    (hd : ∀ l ∈ lefts, ∀ r ∈ rights, DisjointLabels l r) (scale c : ℚ) (hc : 1 / 10 ^ 15 ≤ |c|)
    (hcoeff : ∀ l ∈ lefts, ∀ r ∈ rights, ∃ n : ℤ, scale * (l.coeff * r.coeff) = n * c) (out : List Term)
    (h : LinearCommutatorRun m o lefts rights scale out)
    (orb : Orbitals O) (I : Interp O R A) (hI : I.Antisymmetric) (hH : I.Hermitian) (hph : I.Physical orb) (hac : I.ActiveCumulants orb)
    (hna : I.NoActiveAmplitudes orb) (field : Bool × O → A) (hfield : Fermions field) (hno : I.NormalOrdered field)
    (hcu : I.CumulantsUpTo o.maxCu) (hmin : o.minOpen ≤ 0)
    (hmax : ∀ l ∈ lefts, ∀ r ∈ rights, (nOperators [l.sqOp, r.sqOp] : Int) ≤ o.maxOpen + 2) (s : Store O R) (hs : SuppliedArrays s I) :
    PrintedCodeComputes orb I s out (algebraMap ℚ R scale •
      ((lefts.map fun t => I.value orb t.coeff t.tensors t.sqOp).sum * (rights.map fun t => I.value orb t.coeff t.tensors t.sqOp).sum -
        (rights.map fun t => I.value orb t.coeff t.tensors t.sqOp).sum * (lefts.map fun t => I.value orb t.coeff t.tensors t.sqOp).sum)) := by
  have hS : I.SlotSymmetric true o.hermitian := ⟨fun _ => hI, fun h => (nomatch h), fun _ => hH⟩
  rw [← C81_linear_commutator m hcanon hord hcpu o lefts rights hl hr hd scale c hc hcoeff out h orb I hS hph hac hna field hfield hno hcu hmin hmax]
  exact writable_computes hI hH hs (LinearCommutatorRun.writable hcanon hord hcpu hn (fun l hl' => (hl l hl').writable hcanon hord hcpu (hhl l hl'))
    (fun r hr' => (hr r hr').writable hcanon hord hcpu (hhr r hr')) hd h)

/-- C88 (`recursive_single_commutator`): the code printed for level `i` computes `[…[[t₀, t₁], t₂]…, tᵢ]`. -/
theorem C88_recursive_single_commutator (m : Machine) (hcanon : CanonContract m.canon) (hord : m.ord.Lawful) (hcpu : 1 ≤ m.cpus) (o : Options)
    (hn : 1 ≤ o.nProcess) (ho : o.expandHole = true)
    (first : Term) (levels : List (Term × Int × Int × Int)) (hf : LibraryTerm m first) (hl : ∀ l ∈ levels, LibraryTerm m l.1)
    (hhf : ∀ x ∈ first.tensors, x.cls ≠ .hole) (hhl : ∀ l ∈ levels, ∀ x ∈ l.1.tensors, x.cls ≠ .hole)
    (N : Nat) (hN : (labelsOf first.tensors first.sqOp).card ≤ N ∧ ∀ i ∈ labelsOf first.tensors first.sqOp, i.number < N)
    (hnum : ∀ pre l post, levels = pre ++ l :: post → ∀ i ∈ labelsOf l.1.tensors l.1.sqOp,
      N + (pre.map fun l => (labelsOf l.1.tensors l.1.sqOp).card).sum ≤ i.number)
    (hsize : ∀ pre l post, levels = pre ++ l :: post → 1 / 10 ^ 15 ≤ |first.coeff * ((pre.map fun l => l.1.coeff).prod * l.1.coeff)|)
    (outs : List (List Term)) (h : RecursiveRun m o [first] levels outs)
    (orb : Orbitals O) (I : Interp O R A) (hI : I.Antisymmetric) (hH : I.Hermitian) (hph : I.Physical orb) (hac : I.ActiveCumulants orb)
    (hna : I.NoActiveAmplitudes orb) (field : Bool × O → A) (hfield : Fermions field) (hno : I.NormalOrdered field)
    (hw : WideLevels I (nOperators [first.sqOp]) levels) (i : Nat) (hi : i < levels.length) (s : Store O R) (hs : SuppliedArrays s I) :
    ∃ out, outs[i]? = some out ∧ PrintedCodeComputes orb I s out (leftCommutator (I.value orb first.coeff first.tensors first.sqOp)
      ((levels.take (i + 1)).map fun l => I.value orb l.1.coeff l.1.tensors l.1.sqOp)) := by
  have hS : I.SlotSymmetric true o.hermitian := ⟨fun _ => hI, fun h => (nomatch h), fun _ => hH⟩
  obtain ⟨out, h1, h2⟩ := C81_recursive_single_commutator m hcanon hord hcpu o first levels hf hl N hN hnum hsize outs h orb I hS hph hac hna field hfield
    hno hw i hi
  refine ⟨out, h1, ?_⟩
  rw [← h2]
  have hfw := hf.writable hcanon hord hcpu hhf
  exact writable_computes hI hH hs (RecursiveRun.writable hcanon hord hcpu hn ho (N := N) (by
      intro t ht
      obtain rfl : t = first := by simpa using ht
      exact ⟨hfw.nice.1, hN.1, hN.2⟩) (by simpa using hfw) (fun l hl' => (hl l hl').writable hcanon hord hcpu (hhl l hl')) hnum h out
    (List.mem_of_getElem? h1))

/-- C88 (`bch_cc_rsc`): the code printed for the terms of level `n` computes `1 / n! [...[[H, A], A]..., A]`. -/
theorem C88_bch_cc_rsc (m : Machine) (hcanon : CanonContract m.canon) (hord : m.ord.Lawful) (hcpu : 1 ≤ m.cpus) (o : Options) (hn : 1 ≤ o.nProcess)
    (ho : o.expandHole = true) (levels : List Nat) (hk : ∀ k ∈ levels, 1 ≤ k) (K : Nat)
    (hK : levels.max? = some K) (unitary singleRef : Bool) (limits : List (Int × Int × Int))
    (hsize : 4 * (K.factorial ^ 2) ^ limits.length * limits.length.factorial ≤ 10 ^ 15)
    (calls : List (List (Term × Term))) (outs : List (List Term)) (h : BchRun m o levels unitary singleRef limits calls outs)
    (orb : Orbitals O) (I : Interp O R A) (hI : I.Antisymmetric) (hH : I.Hermitian) (hph : I.Physical orb) (hac : I.ActiveCumulants orb)
    (hna : I.NoActiveAmplitudes orb) (field : Bool × O → A) (hfield : Fermions field) (hno : I.NormalOrdered field)
    (hw : WideLimits I K 4 limits) (s : Store O R) (hs : SuppliedArrays s I) (n : Nat) (hn' : n ≤ limits.length) :
    ∃ out, outs[n]? = some out ∧ PrintedCodeComputes orb I s out
      (algebraMap ℚ R (1 / (n.factorial : ℚ)) • nestedCommutator
        (I.hamiltonianPart (Finset.univ.filter fun o => orb.spin o = false ∧ orb.elem o ≠ .active) 1 +
          I.hamiltonianPart (Finset.univ.filter fun o => orb.spin o = false ∧ orb.elem o ≠ .active) 2)
        (I.generator orb singleRef unitary levels) n) := by
  have hS : I.SlotSymmetric true o.hermitian := ⟨fun _ => hI, fun h => (nomatch h), fun _ => hH⟩
  obtain ⟨out, h1, h2⟩ := C79_level m hcanon hord o levels K hK unitary singleRef limits hsize calls outs h orb I hS hph hac hna field hfield hno hw n hn'
  refine ⟨out, h1, ?_⟩
  rw [← h2]
  exact writable_computes hI hH hs (BchRun.writable hcanon hord hcpu hn ho hk h out (List.mem_of_getElem? h1))

/-- C88 for all levels together: the code printed for the terms of all levels computes the expansion of `exp(-A) H exp(A)` up to the last level. -/
theorem C88_bch_cc_rsc_sum (m : Machine) (hcanon : CanonContract m.canon) (hord : m.ord.Lawful) (hcpu : 1 ≤ m.cpus) (o : Options) (hn : 1 ≤ o.nProcess)
    (ho : o.expandHole = true) (levels : List Nat) (hk : ∀ k ∈ levels, 1 ≤ k) (K : Nat)
    (hK : levels.max? = some K) (unitary singleRef : Bool) (limits : List (Int × Int × Int))
    (hsize : 4 * (K.factorial ^ 2) ^ limits.length * limits.length.factorial ≤ 10 ^ 15)
    (calls : List (List (Term × Term))) (outs : List (List Term)) (h : BchRun m o levels unitary singleRef limits calls outs)
    (orb : Orbitals O) (I : Interp O R A) (hI : I.Antisymmetric) (hH : I.Hermitian) (hph : I.Physical orb) (hac : I.ActiveCumulants orb)
    (hna : I.NoActiveAmplitudes orb) (field : Bool × O → A) (hfield : Fermions field) (hno : I.NormalOrdered field)
    (hw : WideLimits I K 4 limits) (s : Store O R) (hs : SuppliedArrays s I) :
    PrintedCodeComputes orb I s outs.flatten (∑ n ∈ Finset.range (limits.length + 1), algebraMap ℚ R (1 / (n.factorial : ℚ)) • nestedCommutator
      (I.hamiltonianPart (Finset.univ.filter fun o => orb.spin o = false ∧ orb.elem o ≠ .active) 1 +
        I.hamiltonianPart (Finset.univ.filter fun o => orb.spin o = false ∧ orb.elem o ≠ .active) 2)
      (I.generator orb singleRef unitary levels) n) := by
  have hS : I.SlotSymmetric true o.hermitian := ⟨fun _ => hI, fun h => (nomatch h), fun _ => hH⟩
  rw [← C79_sum m hcanon hord o levels K hK unitary singleRef limits hsize calls outs h orb I hS hph hac hna field hfield hno hw]
  refine writable_computes hI hH hs fun t ht => ?_
  obtain ⟨out, h1, h2⟩ := List.mem_flatten.1 ht
  exact BchRun.writable hcanon hord hcpu hn ho hk h out h1 t h2

/-- C88 (`nested_commutator_cc`): the code printed for `n` commutators computes `1 / n! [...[[H, A], A]..., A]`, under the conditions of C80:
all contractions, or connected contractions (the default) and at most two commutators or excitation operators of a single determinant. -/
theorem C88_nested_commutator_cc (m : Machine) (hcanon : CanonContract m.canon) (hord : m.ord.Lawful) (hcpu : 1 ≤ m.cpus) (o : Options)
    (hnp : 1 ≤ o.nProcess) (ho : o.expandHole = true)
    (n : Nat) (hn : 1 ≤ n) (levels : List Nat) (K : Nat) (hK : ∀ k ∈ levels, 1 ≤ k ∧ k ≤ K)
    (hsize : n.factorial * (4 * (K.factorial ^ 2) ^ n) ≤ 10 ^ 15) (unitary singleRef : Bool)
    (hmode : o.forCommutator = false ∨ n ≤ 2 ∨ (singleRef = true ∧ unitary = false))
    (expansion : List (ℤ × List OpName)) (calls : List (List Term × ℚ)) (out : List Term)
    (h : NestedRun m o n levels unitary singleRef expansion calls out)
    (orb : Orbitals O) (I : Interp O R A) (hI : I.Antisymmetric) (hH : I.Hermitian) (hph : I.Physical orb) (hac : I.ActiveCumulants orb)
    (hna : I.NoActiveAmplitudes orb) (field : Bool × O → A) (hfield : Fermions field) (hno : I.NormalOrdered field)
    (hcu : I.CumulantsUpTo o.maxCu) (hmin : o.minOpen ≤ 0) (hmax : ((4 + 2 * K * n : Nat) : Int) ≤ o.maxOpen)
    (s : Store O R) (hs : SuppliedArrays s I) :
    PrintedCodeComputes orb I s out (algebraMap ℚ R (1 / (n.factorial : ℚ)) • nestedCommutator
      (I.hamiltonianPart (Finset.univ.filter fun o => orb.spin o = false) 1 + I.hamiltonianPart (Finset.univ.filter fun o => orb.spin o = false) 2)
      (I.generator orb singleRef unitary levels) n) := by
  have hS : I.SlotSymmetric true o.hermitian := ⟨fun _ => hI, fun h => (nomatch h), fun _ => hH⟩
  have hv : (out.map fun t => I.value orb t.coeff t.tensors t.sqOp).sum = algebraMap ℚ R (1 / (n.factorial : ℚ)) • nestedCommutator
      (I.hamiltonianPart (Finset.univ.filter fun o => orb.spin o = false) 1 + I.hamiltonianPart (Finset.univ.filter fun o => orb.spin o = false) 2)
      (I.generator orb singleRef unitary levels) n := by
    cases hf : o.forCommutator with
    | false =>
      exact C80_nested_partial m hcanon hord o hf n hn levels K hK hsize unitary singleRef expansion calls out h orb I hS hph hac hna field hfield hno
        hcu hmin hmax
    | true =>
      exact C80_nested_connected_partial m hcanon hord o hf n hn levels K hK hsize unitary singleRef (hmode.resolve_left (by simp [hf])) expansion calls
        out h orb I hS hph hac hna field hfield hno hcu hmin (by omega)
  rw [← hv]
  exact writable_computes hI hH hs (NestedRun.writable hcanon hord hcpu hnp ho (fun k hk => (hK k hk).1) h)

/-- Arrays for an interpretation. -/
def suppliedStore (I : Interp O R A) : Store O R := fun nm os =>
  match nm with
  | 'H' :: _ => I.tensor .hamiltonian ['H'] (os.take (os.length / 2)) (os.drop (os.length / 2))
  | 'T' :: _ => I.tensor .cluster ['T'] (os.take (os.length / 2)) (os.drop (os.length / 2))
  | 'L' :: _ => I.tensor .cumulant ['L'] (os.take (os.length / 2)) (os.drop (os.length / 2))
  | _ => 0

/-- The hypothesis about the arrays can be met, whatever the tensors are. -/
theorem C88_arrays_exist (I : Interp O R A) : ∃ s : Store O R, SuppliedArrays s I := by
  refine ⟨suppliedStore I, fun u l h => ?_⟩
  have e : (u ++ l).length / 2 = u.length := by rw [List.length_append, ← h]; omega
  have e1 : (u ++ l).take ((u ++ l).length / 2) = u := by rw [e]; simp
  have e2 : (u ++ l).drop ((u ++ l).length / 2) = l := by rw [e]; simp
  refine ⟨?_, ?_, ?_⟩ <;> (simp only [suppliedStore]; rw [e1, e2])

end

/-- The hypotheses of C88 can be met: the levels of the unitary transformation of the Hamiltonian of two orbitals, with one-body amplitudes; the second
commutator is not zero. -/
theorem C88_example : ∃ (o : Options) (calls : List (List (Term × Term))) (outs : List (List Term)) (s : Store (Fin 2) ℚ),
    BchRun exMachine o [1] true false [(1, 0, 4), (1, 0, 4), (1, 0, 4)] calls outs ∧ 1 ≤ o.nProcess ∧ o.expandHole = true ∧
    WideLimits fockSpace 1 4 [(1, 0, 4), (1, 0, 4), (1, 0, 4)] ∧ fockSpace.Antisymmetric ∧ fockSpace.Hermitian ∧
    fockSpace.Physical coreVirtual ∧ fockSpace.ActiveCumulants coreVirtual ∧
    fockSpace.NoActiveAmplitudes coreVirtual ∧ Fermions twoFermions ∧ fockSpace.NormalOrdered twoFermions ∧ SuppliedArrays s fockSpace ∧
    nestedCommutator
      (fockSpace.hamiltonianPart (Finset.univ.filter fun o => coreVirtual.spin o = false ∧ coreVirtual.elem o ≠ .active) 1 +
        fockSpace.hamiltonianPart (Finset.univ.filter fun o => coreVirtual.spin o = false ∧ coreVirtual.elem o ≠ .active) 2)
      (fockSpace.generator coreVirtual false true [1]) 2 ≠ 0 := by
  obtain ⟨c, l, p⟩ := exMachine_ok
  let o : Options := { maxCu := 1, maxOpen := 8, minOpen := 0, forCommutator := true, expandHole := true, nProcess := 2, hermitian := true }
  obtain ⟨calls, outs, h⟩ := (C76_bch_cc_rsc _ c l p o (by decide) [1] (by simp) (by simp) true false [(1, 0, 4), (1, 0, 4), (1, 0, 4)]).2
  obtain ⟨w1, w2, w3, w4, w5⟩ := fockSpace_world
  obtain ⟨s, hs⟩ := C88_arrays_exist fockSpace
  refine ⟨o, calls, outs, s, h, by decide, rfl, ?_, w1.1 rfl, w1.2.2 rfl, w2, w3, w4, twoFermions_fermions, fockSpace_normalOrdered, hs, by decide +kernel⟩
  simp [WideLimits, w5]

/-- One-body factors and operators are deltas. -/
def oneBodyWorld : Interp (Fin 2) ℚ ℚ where
  tensor _ _ u l := match u, l with
    | [a], [b] => if a = b then 1 else 0
    | _, _ => 0
  op u l := match u, l with
    | [a], [b] => if a = b then 1 else 0
    | _, _ => 0

/-- Without the expansion of hole densities the code is wrong: the array of a hole density is called `C1`, like the target of the one-body terms.  For
`H^{a0}_{a1} C^{a1}_{a2} a^{a2}_{a0}` the generated function sets `C1` to zero before it reads it, and for two such terms the second statement printed by
`print_terms_ambit` reads what the first one has written. -/
theorem C88_violation_hole_density : ∃ t1 t2,
    Term.make [soTensor .hamiltonian 'H' 0 [lab .a 0] [lab .a 1], soTensor .hole 'C' 1 [lab .a 1] [lab .a 2]]
      (soOp [lab .a 2] [lab .a 0]) 1 = .ok t1 ∧
    Term.make [soTensor .hamiltonian 'H' 0 [lab .a 0] [lab .a 1], soTensor .hole 'C' 1 [lab .a 1] [lab .g 0]]
      (soOp [lab .g 0] [lab .a 0]) 1 = .ok t2 ∧ Printable t1 ∧ Printable t2 ∧
    (∀ t ∈ [t1, t2], ArraysHold deltaStore oneBodyWorld t.tensors) ∧
    oneBodyWorld.value twoActive t1.coeff t1.tensors t1.sqOp = 2 ∧ oneBodyWorld.value twoActive t2.coeff t2.tensors t2.sqOp = 2 ∧
    (∃ f, forteMain [t1] false false = .ok f ∧ oneBodyWorld.arraysOperator {1} (f.run twoActive (1 : ℚ) deltaStore) = 0) ∧
    ∃ prog, printTermsAmbit [t1, t2] = .ok prog ∧
      oneBodyWorld.arraysOperator {1} (fun nm os => runCode twoActive deltaStore prog nm os - deltaStore nm os) = 6 := by
  refine ⟨_, _, rfl, rfl, printable_make [soTensor .hamiltonian 'H' 0 [lab .a 0] [lab .a 1], soTensor .hole 'C' 1 [lab .a 1] [lab .a 2]]
      (soOp [lab .a 2] [lab .a 0]) 1 rfl (by decide +kernel) (by decide +kernel) (by decide +kernel),
    printable_make [soTensor .hamiltonian 'H' 0 [lab .a 0] [lab .a 1], soTensor .hole 'C' 1 [lab .a 1] [lab .g 0]]
      (soOp [lab .g 0] [lab .a 0]) 1 rfl (by decide +kernel) (by decide +kernel) (by decide +kernel), ?_, ?_, ?_, ?_, ?_⟩
  · have e : ∀ x : Tensor, x.upper.list.length = 1 ∧ x.lower.list.length = 1 → ∀ u l : List (Fin 2), u.length = x.upper.list.length →
        l.length = x.lower.list.length → deltaStore x.arrayName (u ++ l) = oneBodyWorld.tensor x.cls x.name u l := by
      intro x hx u l hu hl
      rw [hx.1] at hu
      rw [hx.2] at hl
      obtain ⟨a, rfl⟩ := List.length_eq_one_iff.1 hu
      obtain ⟨b, rfl⟩ := List.length_eq_one_iff.1 hl
      rfl
    intro t ht x hx
    refine e x ?_
    revert x t
    decide +kernel
  · decide +kernel
  · decide +kernel
  · exact ok_with (fun f : MainFunction => oneBodyWorld.arraysOperator {1} (f.run twoActive (1 : ℚ) deltaStore) = 0) (by decide +kernel)
  · exact ok_with (fun prog : List AmbitStmt =>
      oneBodyWorld.arraysOperator {1} (fun nm os => runCode twoActive deltaStore prog nm os - deltaStore nm os) = 6) (by decide +kernel)

end Dsrg
