import Verif.Lemmas.Similarity
import Verif.Props.Rank
import Verif.Props.Transformation
import Verif.Props.EndToEnd
import Verif.Props.OpenWindow
import Verif.Props.Connected
import Verif.Props.NestedWindow

/-!
Property C112: coupled cluster theory with a single determinant.
-/

namespace Dsrg

section
variable {O R A : Type} [Fintype O] [DecidableEq O] [Inhabited O] [CommRing R] [Algebra ℚ R] [Ring A] [Algebra R A]

omit [Fintype O] [Inhabited O] [Algebra ℚ R] [Ring A] [Algebra R A] in
theorem wideLimits_replicate {M : Type} {I : Interp O R M} {K B : Nat} : ∀ {j n : Nat}, n + 2 * K * j ≤ B →
    WideLimits I K n (List.replicate j (0, 0, (B : Int))) := by
  intro j
  induction j with
  | zero => intro n _; trivial
  | succ j ih =>
    intro n h
    have hB : n + 2 * K + 2 * K * j ≤ B := by rw [Nat.mul_succ] at h; omega
    have hB' : n + 2 * K ≤ B := by omega
    refine ⟨fun h => absurd h (by decide), le_refl _, by push_cast; omega, ?_⟩
    have e : (min (B : Int) ((n + 2 * K : Nat) : Int)).toNat = n + 2 * K := by
      rw [min_eq_right (Int.ofNat_le.2 hB')]
      rfl
    rw [e]
    exact ih hB

/-- `[[[[[H, T], T], T], T], T] = 0` for excitation operators of a single determinant, by means of `bch_cc_rsc`: the operators that the empty
level 5 stands for. -/
theorem C112_five_commutators (m : Machine) (hcanon : CanonContract m.canon) (hord : m.ord.Lawful) (hcpu : 1 ≤ m.cpus)
    (levels : List Nat) (K : Nat) (hK : levels.max? = some K) (hk : ∀ k ∈ levels, 1 ≤ k)
    (hsize : 4 * (K.factorial ^ 2) ^ 5 * Nat.factorial 5 ≤ 10 ^ 15)
    (orb : Orbitals O) (I : Interp O R A) {hermitian : Bool} (hI : I.SlotSymmetric true hermitian) (hph : I.Physical orb) (hac : I.ActiveCumulants orb)
    (hna : I.NoActiveAmplitudes orb) (field : Bool × O → A) (hfield : Fermions field) (hno : I.NormalOrdered field) [Algebra ℚ A] [IsScalarTower ℚ R A] :
    nestedCommutator
      (I.hamiltonianPart (Finset.univ.filter fun o => orb.spin o = false ∧ orb.elem o ≠ .active) 1 +
        I.hamiltonianPart (Finset.univ.filter fun o => orb.spin o = false ∧ orb.elem o ≠ .active) 2)
      (I.generator orb true false levels) 5 = 0 := by
  let o : Options := { maxCu := 0, maxOpen := 0, minOpen := 0, forCommutator := true, expandHole := true, nProcess := 1, hermitian := hermitian }
  have hne : levels ≠ [] := by
    rintro rfl
    cases hK
  let limits : List (Int × Int × Int) := List.replicate 5 (0, 0, ((4 + 2 * K * 5 : Nat) : Int))
  obtain ⟨calls, outs, h⟩ := (C76_bch_cc_rsc m hcanon hord hcpu o (le_refl 1) levels hne hk false true limits).2
  obtain ⟨out, h1, h2⟩ := C79_level m hcanon hord o levels K hK false true limits (by simpa [limits] using hsize) calls outs h orb I hI hph hac hna
    field hfield hno (wideLimits_replicate (le_refl _)) 5 (by simp [limits])
  have h3 := C111_bch_cc_rsc m hcanon hord o rfl levels limits calls outs h 5 out (le_refl _) h1
  subst h3
  rw [algebraMap_smul] at h2
  exact (smul_eq_zero.1 h2.symm).resolve_left (by norm_num [Nat.factorial])

/-- C112: with a single determinant (`single_reference=True`, `unitary=False`, no active orbitals), the terms that `bch_cc_rsc` returns for four
or more levels add up to the similarity-transformed Hamiltonian `exp(-T) H exp(T)` itself, not an approximation of it.  The limits must cut off
nothing but uncontracted products, and the coefficients must not fall under the threshold of `combine_terms`. -/
theorem C112_similarity_transformation (m : Machine) (hcanon : CanonContract m.canon) (hord : m.ord.Lawful) (hcpu : 1 ≤ m.cpus) (o : Options)
    (levels : List Nat) (K : Nat) (hK : levels.max? = some K) (hk : ∀ k ∈ levels, 1 ≤ k) (limits : List (Int × Int × Int)) (h4 : 4 ≤ limits.length)
    (hsize : 4 * (K.factorial ^ 2) ^ (max 5 limits.length) * (max 5 limits.length).factorial ≤ 10 ^ 15)
    (calls : List (List (Term × Term))) (outs : List (List Term)) (h : BchRun m o levels false true limits calls outs)
    (orb : Orbitals O) (hact : ∀ x, orb.elem x ≠ .active)
    (I : Interp O R A) (hI : I.SlotSymmetric true o.hermitian) (hph : I.Physical orb) (hac : I.ActiveCumulants orb)
    (field : Bool × O → A) (hfield : Fermions field) (hno : I.NormalOrdered field)
    (hw : WideLimits I K 4 limits) (hna : I.NoActiveAmplitudes orb) [Algebra ℚ A] [IsScalarTower ℚ R A] :
    IsNilpotent (I.generator orb true false levels) ∧
    (outs.flatten.map fun t => I.value orb t.coeff t.tensors t.sqOp).sum =
      IsNilpotent.exp (-I.generator orb true false levels) *
        (I.hamiltonianPart (Finset.univ.filter fun x => orb.spin x = false) 1 + I.hamiltonianPart (Finset.univ.filter fun x => orb.spin x = false) 2) *
        IsNilpotent.exp (I.generator orb true false levels) := by
  have mono : ∀ n, n ≤ max 5 limits.length → 4 * (K.factorial ^ 2) ^ n * n.factorial ≤ 10 ^ 15 := fun n hn =>
    le_trans (Nat.mul_le_mul (Nat.mul_le_mul_left 4 (Nat.pow_le_pow_right (Nat.pow_pos (Nat.factorial_pos K)) hn)) (Nat.factorial_le hn)) hsize
  have hnil := generator_nilpotent hph hac hfield hno hk
  refine ⟨hnil, ?_⟩
  have h5 := C112_five_commutators m hcanon hord hcpu levels K hK hk (mono 5 (le_max_left _ _)) orb I hI hph hac hna field hfield hno
  rw [C79_sum m hcanon hord o levels K hK false true limits (mono _ (le_max_right _ _)) calls outs h orb I hI hph hac hna field hfield hno hw]
  have e : (Finset.univ.filter fun x => orb.spin x = false ∧ orb.elem x ≠ .active) = Finset.univ.filter fun x => orb.spin x = false :=
    Finset.filter_congr fun x _ => by simp [hact x]
  rw [e] at h5 ⊢
  have hz := nestedCommutator_zero h5 (limits.length + 1 - 5)
  rw [show 5 + (limits.length + 1 - 5) = limits.length + 1 by omega] at hz
  rw [similarity hnil hz]
  refine Finset.sum_congr rfl fun n _ => ?_
  rw [algebraMap_smul, one_div]

/-- C112 for the energy: the terms without operators of four or more levels add up to the coupled cluster energy, the expectation value of
`exp(-T) H exp(T)` in the determinant. -/
theorem C112_energy (m : Machine) (hcanon : CanonContract m.canon) (hord : m.ord.Lawful) (hcpu : 1 ≤ m.cpus) (o : Options)
    (levels : List Nat) (K : Nat) (hK : levels.max? = some K) (hk : ∀ k ∈ levels, 1 ≤ k) (limits : List (Int × Int × Int)) (h4 : 4 ≤ limits.length)
    (hsize : 4 * (K.factorial ^ 2) ^ (max 5 limits.length) * (max 5 limits.length).factorial ≤ 10 ^ 15)
    (calls : List (List (Term × Term))) (outs : List (List Term)) (h : BchRun m o levels false true limits calls outs)
    (orb : Orbitals O) (hact : ∀ x, orb.elem x ≠ .active)
    (I : Interp O R A) (hI : I.SlotSymmetric true o.hermitian) (hph : I.Physical orb) (hac : I.ActiveCumulants orb)
    (field : Bool × O → A) (hfield : Fermions field) (hno : I.NormalOrdered field)
    (hw : WideLimits I K 4 limits) (hna : I.NoActiveAmplitudes orb) [Algebra ℚ A] [IsScalarTower ℚ R A]
    (mean : A →ₗ[R] R) (hmean : IsCumulantOf I.contraction field mean) :
    ((outs.flatten.filter fun t => t.sqOp.upper.list = [] ∧ t.sqOp.lower.list = []).map (I.number orb)).sum =
      mean (IsNilpotent.exp (-I.generator orb true false levels) *
        (I.hamiltonianPart (Finset.univ.filter fun x => orb.spin x = false) 1 + I.hamiltonianPart (Finset.univ.filter fun x => orb.spin x = false) 2) *
        IsNilpotent.exp (I.generator orb true false levels)) := by
  obtain ⟨h0, h1⟩ := (C103_cumulants I (hI.1 rfl) (hph.hole _) field hfield hno mean).1 hmean
  rw [mean_list hno h0 h1, (C112_similarity_transformation m hcanon hord hcpu o levels K hK hk limits h4 hsize calls outs h orb hact I hI hph hac field
    hfield hno hw hna).2]

/-- C112 for the generated program: the code printed for the terms of four or more levels computes `exp(-T) H exp(T)`. -/
theorem C112_printed_code (m : Machine) (hcanon : CanonContract m.canon) (hord : m.ord.Lawful) (hcpu : 1 ≤ m.cpus) (o : Options)
    (hn : 1 ≤ o.nProcess) (ho : o.expandHole = true)
    (levels : List Nat) (K : Nat) (hK : levels.max? = some K) (hk : ∀ k ∈ levels, 1 ≤ k) (limits : List (Int × Int × Int)) (h4 : 4 ≤ limits.length)
    (hsize : 4 * (K.factorial ^ 2) ^ (max 5 limits.length) * (max 5 limits.length).factorial ≤ 10 ^ 15)
    (calls : List (List (Term × Term))) (outs : List (List Term)) (h : BchRun m o levels false true limits calls outs)
    (orb : Orbitals O) (hact : ∀ x, orb.elem x ≠ .active)
    (I : Interp O R A) (hI : I.Antisymmetric) (hH : I.Hermitian) (hph : I.Physical orb) (hac : I.ActiveCumulants orb)
    (field : Bool × O → A) (hfield : Fermions field) (hno : I.NormalOrdered field)
    (hw : WideLimits I K 4 limits) (hna : I.NoActiveAmplitudes orb) [Algebra ℚ A] [IsScalarTower ℚ R A]
    (s : Store O R) (hs : SuppliedArrays s I) :
    PrintedCodeComputes orb I s outs.flatten (IsNilpotent.exp (-I.generator orb true false levels) *
        (I.hamiltonianPart (Finset.univ.filter fun x => orb.spin x = false) 1 + I.hamiltonianPart (Finset.univ.filter fun x => orb.spin x = false) 2) *
        IsNilpotent.exp (I.generator orb true false levels)) := by
  have hS : I.SlotSymmetric true o.hermitian := ⟨fun _ => hI, fun h => (nomatch h), fun _ => hH⟩
  rw [← (C112_similarity_transformation m hcanon hord hcpu o levels K hK hk limits h4 hsize calls outs h orb hact I hS hph hac field
    hfield hno hw hna).2]
  refine writable_computes hI hH hs fun t ht => ?_
  obtain ⟨out, h1, h2⟩ := List.mem_flatten.1 ht
  exact BchRun.writable hcanon hord hcpu hn ho hk h out h1 t h2

/-- C112 (`nested_commutator_cc`): the Hamiltonian and the terms of one, two, three and four commutators add up to `exp(-T) H exp(T)`, with connected
contractions only (the default) and with all contractions. -/
theorem C112_nested_commutator_cc (m : Machine) (hcanon : CanonContract m.canon) (hord : m.ord.Lawful) (hcpu : 1 ≤ m.cpus) (o : Options)
    (levels : List Nat) (K : Nat) (hK : levels.max? = some K) (hk : ∀ k ∈ levels, 1 ≤ k)
    (hsize : 4 * (K.factorial ^ 2) ^ 5 * Nat.factorial 5 ≤ 10 ^ 15)
    (expansion : Nat → List (ℤ × List OpName)) (calls : Nat → List (List Term × ℚ)) (out : Nat → List Term)
    (h : ∀ n ∈ [1, 2, 3, 4], NestedRun m o n levels false true (expansion n) (calls n) (out n))
    (orb : Orbitals O) (hact : ∀ x, orb.elem x ≠ .active)
    (I : Interp O R A) (hI : I.SlotSymmetric true o.hermitian) (hph : I.Physical orb) (hac : I.ActiveCumulants orb)
    (field : Bool × O → A) (hfield : Fermions field) (hno : I.NormalOrdered field)
    (hcu : I.CumulantsUpTo o.maxCu) (hmin : o.minOpen ≤ 0) (hmax : ((4 + 2 * K * 4 : Nat) : Int) ≤ o.maxOpen)
    (hna : I.NoActiveAmplitudes orb) [Algebra ℚ A] [IsScalarTower ℚ R A] :
    I.hamiltonianPart (Finset.univ.filter fun x => orb.spin x = false) 1 + I.hamiltonianPart (Finset.univ.filter fun x => orb.spin x = false) 2 +
      ((out 1 ++ out 2 ++ out 3 ++ out 4).map fun t => I.value orb t.coeff t.tensors t.sqOp).sum =
      IsNilpotent.exp (-I.generator orb true false levels) *
        (I.hamiltonianPart (Finset.univ.filter fun x => orb.spin x = false) 1 + I.hamiltonianPart (Finset.univ.filter fun x => orb.spin x = false) 2) *
        IsNilpotent.exp (I.generator orb true false levels) := by
  have hnil := generator_nilpotent hph hac hfield hno hk
  have h5 := C112_five_commutators m hcanon hord hcpu levels K hK hk hsize orb I hI hph hac hna field hfield hno
  have e : (Finset.univ.filter fun x => orb.spin x = false ∧ orb.elem x ≠ .active) = Finset.univ.filter fun x => orb.spin x = false :=
    Finset.filter_congr fun x _ => by simp [hact x]
  rw [e] at h5
  have hK' : ∀ k ∈ levels, 1 ≤ k ∧ k ≤ K := fun k hx => ⟨hk k hx, (List.max?_eq_some_iff.1 hK).2 k hx⟩
  have level : ∀ n ∈ [1, 2, 3, 4], ((out n).map fun t => I.value orb t.coeff t.tensors t.sqOp).sum =
      ((n.factorial : ℚ)⁻¹) • nestedCommutator
        (I.hamiltonianPart (Finset.univ.filter fun x => orb.spin x = false) 1 + I.hamiltonianPart (Finset.univ.filter fun x => orb.spin x = false) 2)
        (I.generator orb true false levels) n := by
    intro n hn
    have hn4 : 1 ≤ n ∧ n ≤ 4 := by
      simp only [List.mem_cons, List.not_mem_nil, or_false] at hn
      omega
    have hsz : n.factorial * (4 * (K.factorial ^ 2) ^ n) ≤ 10 ^ 15 := by
      rw [mul_comm]
      exact le_trans (Nat.mul_le_mul (Nat.mul_le_mul_left 4 (Nat.pow_le_pow_right (Nat.pow_pos (Nat.factorial_pos K)) (by omega)))
        (Nat.factorial_le (by omega))) hsize
    have hm : ((4 + 2 * K * n : Nat) : Int) ≤ o.maxOpen := by
      refine le_trans ?_ hmax
      exact Int.ofNat_le.2 (Nat.add_le_add_left (Nat.mul_le_mul_left _ hn4.2) 4)
    rw [← one_div, ← algebraMap_smul R (1 / (n.factorial : ℚ))]
    cases hf : o.forCommutator with
    | true =>
      exact C80_nested_connected_partial m hcanon hord o hf n hn4.1 levels K hK' hsz false true (Or.inr ⟨rfl, rfl⟩) _ _ _ (h n hn) orb I hI hph hac hna
        field hfield hno hcu hmin (by omega)
    | false =>
      exact C80_nested_partial m hcanon hord o hf n hn4.1 levels K hK' hsz false true _ _ _ (h n hn) orb I hI hph hac hna field hfield hno hcu hmin hm
  rw [similarity hnil h5]
  simp only [Finset.sum_range_succ, Finset.sum_range_zero, zero_add, List.map_append, List.sum_append]
  rw [level 1 (by simp), level 2 (by simp), level 3 (by simp), level 4 (by simp)]
  simp only [nestedCommutator, Nat.factorial_zero, Nat.cast_one, inv_one, one_smul, add_assoc]

end

/-- The hypotheses of C112 can be met: four levels with one-body amplitudes and two orbitals; the amplitudes do not commute with the Hamiltonian. -/
theorem C112_example : ∃ (o : Options) (calls : List (List (Term × Term))) (outs : List (List Term)),
    BchRun exMachine o [1] false true [(1, 0, 4), (1, 0, 4), (1, 0, 4), (1, 0, 4)] calls outs ∧
    WideLimits fockSpace 1 4 [(1, 0, 4), (1, 0, 4), (1, 0, 4), (1, 0, 4)] ∧ 4 * (Nat.factorial 1 ^ 2) ^ 5 * Nat.factorial 5 ≤ 10 ^ 15 ∧
    (∀ x, coreVirtual.elem x ≠ .active) ∧
    fockSpace.SlotSymmetric true o.hermitian ∧ fockSpace.Physical coreVirtual ∧ fockSpace.ActiveCumulants coreVirtual ∧
    fockSpace.NoActiveAmplitudes coreVirtual ∧ Fermions twoFermions ∧ fockSpace.NormalOrdered twoFermions ∧
    nestedCommutator
      (fockSpace.hamiltonianPart (Finset.univ.filter fun o => coreVirtual.spin o = false) 1 +
        fockSpace.hamiltonianPart (Finset.univ.filter fun o => coreVirtual.spin o = false) 2)
      (fockSpace.generator coreVirtual true false [1]) 1 ≠ 0 := by
  obtain ⟨c, l, p⟩ := exMachine_ok
  let o : Options := { maxCu := 1, maxOpen := 8, minOpen := 0, forCommutator := true, expandHole := true, nProcess := 2, hermitian := true }
  obtain ⟨calls, outs, h⟩ := (C76_bch_cc_rsc _ c l p o (by decide) [1] (by simp) (by simp) false true [(1, 0, 4), (1, 0, 4), (1, 0, 4), (1, 0, 4)]).2
  obtain ⟨w1, w2, w3, w4, w5⟩ := fockSpace_world
  refine ⟨o, calls, outs, h, ?_, by decide, by decide, w1, w2, w3, w4, twoFermions_fermions, fockSpace_normalOrdered, by decide +kernel⟩
  simp [WideLimits, w5]

/-- The additional hypotheses of C112 for the energy and for the generated program can be met in the same space: the expectation value in the
determinant with the core orbital occupied, and arrays.  The energy of the first commutator does not vanish. -/
theorem C112_example_energy : IsCumulantOf fockSpace.contraction twoFermions determinantMean ∧
    (∃ s : Store (Fin 2) ℚ, SuppliedArrays s fockSpace) ∧ fockSpace.Antisymmetric ∧ fockSpace.Hermitian ∧
    determinantMean (nestedCommutator
      (fockSpace.hamiltonianPart (Finset.univ.filter fun o => coreVirtual.spin o = false) 1 +
        fockSpace.hamiltonianPart (Finset.univ.filter fun o => coreVirtual.spin o = false) 2)
      (fockSpace.generator coreVirtual true false [1]) 1) ≠ 0 := by
  obtain ⟨w1, -⟩ := fockSpace_world
  exact ⟨fockSpace_mean, C88_arrays_exist _, w1.1 rfl, w1.2.2 rfl, by decide +kernel⟩

/-- The hypotheses of C112 for `nested_commutator_cc` can be met, with the default `for_commutator=True`. -/
theorem C112_example_nested : ∃ (o : Options) (expansion : Nat → List (ℤ × List OpName)) (calls : Nat → List (List Term × ℚ)) (out : Nat → List Term),
    (∀ n ∈ [1, 2, 3, 4], NestedRun exMachine o n [1] false true (expansion n) (calls n) (out n)) ∧ o.forCommutator = true ∧
    fockSpace.CumulantsUpTo o.maxCu ∧ o.minOpen ≤ 0 ∧ ((4 + 2 * 1 * 4 : Nat) : Int) ≤ o.maxOpen ∧ fockSpace.SlotSymmetric true o.hermitian := by
  obtain ⟨c, l, p⟩ := exMachine_ok
  let o : Options := { maxCu := 1, maxOpen := 12, minOpen := 0, forCommutator := true, expandHole := true, nProcess := 2, hermitian := true }
  have key : ∀ n : Nat, ∃ e calls out, NestedRun exMachine o n [1] false true e calls out := by
    intro n
    obtain ⟨-, ⟨e, he⟩, hex⟩ := C76_nested_commutator_cc _ c l p o (by decide) n [1] (by simp) false true
    obtain ⟨calls, out, h⟩ := hex e he
    exact ⟨e, calls, out, h⟩
  choose e calls out h using key
  obtain ⟨w1, -, -, -, w5⟩ := fockSpace_world
  exact ⟨o, e, calls, out, fun n _ => h n, rfl, w5, by decide, by decide, w1⟩

end Dsrg
