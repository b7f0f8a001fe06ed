import Verif.Lemmas.WickValue
import Verif.Props.Total
import Mathlib.Data.Matrix.Mul
import Mathlib.LinearAlgebra.Matrix.Notation

/-!
Properties C77 and C78: contractions are products of operators, and commutators are commutators.
-/

namespace Dsrg

section
variable {O R A : Type} [Fintype O] [DecidableEq O] [Inhabited O] [CommRing R] [Algebra ℚ R] [Ring A] [Algebra R A]

/-- C77 (the generalized Wick theorem for `contract_terms`): the values of the returned terms add up to the product of the values of the given
terms, taken as operators.  The operator strings stand for products of creation and annihilation operators that are normal ordered with
respect to a reference with the densities and cumulants of the terms.  Nothing must be cut off: all numbers of open operators are
requested, and cumulants above the requested level vanish. -/
theorem C77_contract_terms (m : Machine) (hcanon : CanonContract m.canon) (hord : m.ord.Lawful) (o : Options) (hf : o.forCommutator = false)
    (terms : List Term) (h : OrdinaryFactors terms) (hk : ContractibleFactors terms) (hd : terms.Pairwise DisjointLabels)
    (scale : ℚ) (hc : ¬ Negligible (scale * (terms.map Term.coeff).prod)) (out : List Term) (hr : ContractRun m o terms scale out)
    (orb : Orbitals O) (I : Interp O R A) (hI : I.SlotSymmetric true o.hermitian) (hph : I.Physical orb) (hac : I.ActiveCumulants orb) (hna : I.NoActiveAmplitudes orb) (field : Bool × O → A) (hfield : Fermions field)
    (hno : I.NormalOrdered field) (hcu : I.CumulantsUpTo o.maxCu) (hmin : o.minOpen ≤ 0)
    (hmax : (nOperators (terms.map Term.sqOp) : Int) ≤ o.maxOpen) :
    (out.map fun t => I.value orb t.coeff t.tensors t.sqOp).sum =
      algebraMap ℚ R scale • (terms.map fun t => I.value orb t.coeff t.tensors t.sqOp).prod := by
  by_cases h2 : (productOps terms).length < 2
  · match terms, hr, h2 with
    | first :: rest, hr, h2 =>
      unfold ContractRun at hr
      simp only [if_pos h2] at hr
      obtain ⟨t, ht, rfl⟩ := hr
      rw [← properOps_eq] at h2 ht
      rw [← trivial_value h2 hd hno orb scale]
      obtain ⟨-, -, -, rfl⟩ := Term.make_ok.1 ht
      rw [List.map_singleton, List.sum_singleton, productCoeff_eq]
      exact I.value_perm orb _ (sortTensors_perm _) _
  have h2 : 2 ≤ (properOps terms).length := by rw [properOps_eq]; omega
  have hV := C66_contract_terms m hcanon hord o hf terms h hk h2 scale hc out hr orb I hI hph hac hna
  refine hV.eq_prod ?_ hd hfield hno (hI.1 rfl) hph hac hcu hmin ?_
  · rw [properOps_eq]; exact goodOps_productOps h.ops
  · refine Int.le_trans (Int.ofNat_le.2 ?_) hmax
    unfold nOperators properOps
    exact List.Sublist.sum_le_sum (List.filter_sublist.map _) (by simp)

/-- C78 (`single_commutator`): the values of the returned terms add up to the commutator of the values of the two terms, taken as operators,
also in the mode that leaves out contractions that cancel, and also when the uncontracted products are cut off. -/
theorem C78_single_commutator (m : Machine) (hcanon : CanonContract m.canon) (hord : m.ord.Lawful) (o : Options)
    (a b : Term) (h : OrdinaryFactors [a, b]) (hk : ContractibleFactors [a, b]) (hd : DisjointLabels a b)
    (heven : Even (a.sqOp.upper.list.length + a.sqOp.lower.list.length) ∨ Even (b.sqOp.upper.list.length + b.sqOp.lower.list.length))
    (scale : ℚ) (hc : ¬ Negligible (scale * (a.coeff * b.coeff))) (out : List Term) (hr : CommutatorRun m o a b scale out)
    (orb : Orbitals O) (I : Interp O R A) (hI : I.SlotSymmetric true o.hermitian)
    (hph : I.Physical orb) (hac : I.ActiveCumulants orb) (hna : I.NoActiveAmplitudes orb) (field : Bool × O → A) (hfield : Fermions field)
    (hno : I.NormalOrdered field) (hcu : I.CumulantsUpTo o.maxCu) (hmin : o.minOpen ≤ 0)
    (hmax : (nOperators [a.sqOp, b.sqOp] : Int) ≤ o.maxOpen + 2) :
    (out.map fun t => I.value orb t.coeff t.tensors t.sqOp).sum =
      algebraMap ℚ R scale • (I.value orb a.coeff a.tensors a.sqOp * I.value orb b.coeff b.tensors b.sqOp -
        I.value orb b.coeff b.tensors b.sqOp * I.value orb a.coeff a.tensors a.sqOp) := by
  have hl : ∀ op : SqOp, (stringWord op).length = op.upper.list.length + op.lower.list.length := by intro op; simp [stringWord]
  refine IsCommutatorValue.eq_commutator h.ops (by rw [hl, hl]; exact heven) hd hfield hno (hI.1 rfl) hph hac hcu hmin hmax ?_
  by_cases he : (a.sqOp.upper.list = [] ∧ a.sqOp.lower.list = []) ∨ (b.sqOp.upper.list = [] ∧ b.sqOp.lower.list = [])
  · refine Or.inl ⟨he, ?_⟩
    have : out = [] := hr.trivial h (by
      rw [← properOps_eq]
      unfold properOps
      simp only [List.map_cons, List.map_nil, List.filter_cons, List.filter_nil]
      rcases he with he | he
      · rw [if_neg (by simp [he])]
        split <;> simp
      · rw [if_neg (c := decide (b.sqOp.upper.list ≠ [] ∨ b.sqOp.lower.list ≠ []) = true) (by simp [he])]
        split <;> simp)
    rw [this]; rfl
  · refine Or.inr ⟨he, C66_single_commutator m hcanon hord o a b h hk (by tauto) (by tauto) (fun _ => heven) scale hc out hr orb I hI hph hac hna⟩

/-- C77 for the terms of the library: a list is returned, and every list that can be returned adds up to the product. -/
theorem C77_library (m : Machine) (hcanon : CanonContract m.canon) (hord : m.ord.Lawful) (hcpu : 1 ≤ m.cpus) (o : Options) (hn : 1 ≤ o.nProcess)
    (hf : o.forCommutator = false) (terms : List Term) (hne : terms ≠ []) (h : ∀ t ∈ terms, LibraryTerm m t) (hd : terms.Pairwise DisjointLabels)
    (scale : ℚ) (hc : ¬ Negligible (scale * (terms.map Term.coeff).prod)) (orb : Orbitals O) (I : Interp O R A)
    (hI : I.SlotSymmetric true o.hermitian) (hph : I.Physical orb) (hac : I.ActiveCumulants orb) (hna : I.NoActiveAmplitudes orb)
    (field : Bool × O → A) (hfield : Fermions field) (hno : I.NormalOrdered field) (hcu : I.CumulantsUpTo o.maxCu) (hmin : o.minOpen ≤ 0)
    (hmax : (nOperators (terms.map Term.sqOp) : Int) ≤ o.maxOpen) :
    (∃ out, ContractRun m o terms scale out) ∧ ∀ out, ContractRun m o terms scale out →
      (out.map fun t => I.value orb t.coeff t.tensors t.sqOp).sum =
        algebraMap ℚ R scale • (terms.map fun t => I.value orb t.coeff t.tensors t.sqOp).prod := by
  have hg : ∀ t ∈ terms, GoodTerm t := fun t ht => ((h t ht).nice hcanon hord hcpu).1
  exact ⟨(C76_contract_terms m hcanon hord hcpu o hn terms hne h hd scale).2, fun out hr => C77_contract_terms m hcanon hord o hf terms
    (ordinary_of_good hg hd) (contractible_of_good hg hd) hd scale hc out hr orb I hI hph hac hna field hfield hno hcu hmin hmax⟩

/-- C78 for the terms of the library. -/
theorem C78_library (m : Machine) (hcanon : CanonContract m.canon) (hord : m.ord.Lawful) (hcpu : 1 ≤ m.cpus) (o : Options) (hn : 1 ≤ o.nProcess)
    (a b : Term) (ha : LibraryTerm m a) (hb : LibraryTerm m b) (hd : DisjointLabels a b) (scale : ℚ)
    (hc : ¬ Negligible (scale * (a.coeff * b.coeff))) (orb : Orbitals O) (I : Interp O R A)
    (hI : I.SlotSymmetric true o.hermitian) (hph : I.Physical orb) (hac : I.ActiveCumulants orb) (hna : I.NoActiveAmplitudes orb)
    (field : Bool × O → A) (hfield : Fermions field) (hno : I.NormalOrdered field) (hcu : I.CumulantsUpTo o.maxCu) (hmin : o.minOpen ≤ 0)
    (hmax : (nOperators [a.sqOp, b.sqOp] : Int) ≤ o.maxOpen + 2) :
    (∃ out, CommutatorRun m o a b scale out) ∧ ∀ out, CommutatorRun m o a b scale out →
      (out.map fun t => I.value orb t.coeff t.tensors t.sqOp).sum =
        algebraMap ℚ R scale • (I.value orb a.coeff a.tensors a.sqOp * I.value orb b.coeff b.tensors b.sqOp -
          I.value orb b.coeff b.tensors b.sqOp * I.value orb a.coeff a.tensors a.sqOp) := by
  have hg : ∀ t ∈ [a, b], GoodTerm t := by
    simpa using ⟨(ha.nice hcanon hord hcpu).1, (hb.nice hcanon hord hcpu).1⟩
  have hd' : [a, b].Pairwise DisjointLabels := by simpa using hd
  refine ⟨(C76_single_commutator m hcanon hord hcpu o hn a b ha hb hd scale).2, fun out hr => C78_single_commutator m hcanon hord o a b
    (ordinary_of_good hg hd') (contractible_of_good hg hd') hd (Or.inl ?_) scale hc out hr orb I hI hph hac hna field hfield hno hcu hmin hmax⟩
  rw [(hg a (by simp)).bal]
  exact ⟨_, rfl⟩

omit [Fintype O] [Inhabited O] [Algebra ℚ R] in
/-- Normal-ordered strings have the symmetry that is asked of an interpretation. -/
theorem antisymmetric_of_normalOrdered {field : Bool × O → A} (hf : Fermions field) {I : Interp O R A} (hno : I.NormalOrdered field)
    (hole : ∀ a b, I.tensor .hole ['C'] [a] [b] = (if a = b then 1 else 0) - I.tensor .cumulant ['L'] [a] [b])
    (upper : ∀ cls name pre a b post l, I.tensor cls name (pre ++ b :: a :: post) l = - I.tensor cls name (pre ++ a :: b :: post) l)
    (lower : ∀ cls name u pre a b post, I.tensor cls name u (pre ++ b :: a :: post) = - I.tensor cls name u (pre ++ a :: b :: post)) :
    I.Antisymmetric := by
  have hz : (⟨I.tensor, fun _ _ => (0 : A)⟩ : Interp O R A).Antisymmetric := ⟨upper, lower, by simp, by simp⟩
  have rules : ContractionRules field I.contraction := contraction_rules hf (I := ⟨I.tensor, fun _ _ => (0 : A)⟩) hz hole
  refine ⟨upper, lower, ?_, ?_⟩
  · intro pre a b post l
    rw [hno, hno]
    have := normalOrder_swap rules (pre.map fun x => (true, x)) (post.map (fun x => (true, x)) ++ l.reverse.map fun x => (false, x)) (true, a) (true, b)
    simpa using this
  · intro u pre a b post
    rw [hno, hno]
    have := normalOrder_swap rules (u.map (fun x => (true, x)) ++ post.reverse.map fun x => (false, x)) (pre.reverse.map fun x => (false, x)) (false, b) (false, a)
    simpa using this

end

/-! ### Example: two orbitals, operators as matrices -/

/-- The fermion operators of two orbitals by the construction of Jordan and Wigner. -/
def twoFermions : Bool × Fin 2 → Matrix (Fin 4) (Fin 4) ℚ
  | (true, 0) => !![0, 0, 0, 0; 1, 0, 0, 0; 0, 0, 0, 0; 0, 0, 1, 0]
  | (false, 0) => !![0, 1, 0, 0; 0, 0, 0, 0; 0, 0, 0, 1; 0, 0, 0, 0]
  | (true, 1) => !![0, 0, 0, 0; 0, 0, 0, 0; 1, 0, 0, 0; 0, -1, 0, 0]
  | (false, 1) => !![0, 0, 1, 0; 0, 0, 0, -1; 0, 0, 0, 0; 0, 0, 0, 0]

theorem twoFermions_fermions : Fermions twoFermions := ⟨by decide +kernel, by decide +kernel⟩

/-- The tensors of `meanField` and the operators that are normal ordered with respect to its determinant. -/
def fockSpace : Interp (Fin 2) ℚ (Matrix (Fin 4) (Fin 4) ℚ) where
  tensor := meanField.tensor
  op u l := normalOrder twoFermions meanField.contraction (u.map (fun x => (true, x)) ++ l.reverse.map fun x => (false, x))

theorem fockSpace_normalOrdered : fockSpace.NormalOrdered twoFermions := fun _ _ => rfl

theorem fockSpace_world : fockSpace.SlotSymmetric true true ∧ fockSpace.Physical coreVirtual ∧ fockSpace.ActiveCumulants coreVirtual ∧
    fockSpace.NoActiveAmplitudes coreVirtual ∧ fockSpace.CumulantsUpTo 1 := by
  have e : ∀ cls name u l, fockSpace.tensor cls name u l = meanField.tensor cls name u l := fun _ _ _ _ => rfl
  refine ⟨⟨fun _ => ?_, by simp, fun _ => ?_⟩, ?_, ?_, ?_, ?_⟩
  · refine antisymmetric_of_normalOrdered twoFermions_fermions fockSpace_normalOrdered ?_ ?_ ?_
    · simp only [fockSpace, meanField]; decide +kernel
    · intro cls name pre a b post l
      rw [e, e, meanField_tensor _ _ _ _ (by simp; omega), meanField_tensor _ _ _ _ (by simp; omega), neg_zero]
    · intro cls name u pre a b post
      rw [e, e, meanField_tensor _ _ _ _ (by simp; omega), meanField_tensor _ _ _ _ (by simp; omega), neg_zero]
  · intro cls name u l
    rw [e, e]
    by_cases h : u.length = 1 ∧ l.length = 1
    · obtain ⟨hu, hl⟩ := h
      obtain ⟨a, rfl⟩ := List.length_eq_one_iff.1 hu
      obtain ⟨b, rfl⟩ := List.length_eq_one_iff.1 hl
      cases cls <;> simp only [meanField] <;> revert a b <;> decide
    · rw [meanField_tensor _ _ _ _ h, meanField_tensor _ _ _ _ (by tauto)]
  · refine ⟨fun _ => ?_, fun _ => ?_, fun _ => ?_, fun _ => ?_, fun _ => ?_⟩ <;> simp only [fockSpace, meanField] <;> decide +kernel
  · intro name u l hu _
    exact meanField_tensor _ name _ _ (by tauto)
  · intro name u l h
    rw [e]
    by_cases hl : u.length = 1 ∧ l.length = 1
    · obtain ⟨a, rfl⟩ := List.length_eq_one_iff.1 hl.1
      have := h a (by simp)
      exfalso
      revert this
      clear h hl
      revert a; decide
    · exact meanField_tensor _ _ _ _ hl
  · intro _ name u l hu
    exact meanField_tensor _ name _ _ (by omega)

/-- The hypotheses of C77 and C78 can be met: the product of the two-body Hamiltonian and a two-body amplitude. -/
theorem C77_example : ∃ (h t : Term) (o : Options), LibraryTerm exMachine h ∧ LibraryTerm exMachine t ∧ 1 ≤ o.nProcess ∧ o.forCommutator = false ∧
    DisjointLabels h t ∧ ¬ Negligible (1 * (h.coeff * t.coeff)) ∧ o.minOpen ≤ 0 ∧ nOperators [h.sqOp, t.sqOp] = 8 ∧ o.maxOpen = 8 ∧
    (∃ out, ContractRun exMachine o [h, t] 1 out) ∧ (∃ out, CommutatorRun exMachine o h t 1 out) ∧
    fockSpace.SlotSymmetric true o.hermitian ∧ fockSpace.Physical coreVirtual ∧ fockSpace.ActiveCumulants coreVirtual ∧
    fockSpace.NoActiveAmplitudes coreVirtual ∧ Fermions twoFermions ∧ fockSpace.NormalOrdered twoFermions ∧
    fockSpace.CumulantsUpTo o.maxCu := by
  obtain ⟨c, l, p⟩ := exMachine_ok
  obtain ⟨h, x, hh, -, -, -, hu, hl, eu, el, hc⟩ := C38_hamiltonian 2 0 .spinOrbital
  obtain ⟨t, y, ht, -, -, -, tu, tl, fu, fl, hc'⟩ := C38_cluster 2 4 true ['T'] 1 ⟨.h, false⟩ ⟨.p, false⟩ .spinOrbital rfl (fun _ => rfl)
  have a := LibraryTerm.hamiltonian (m := exMachine) 2 0 h (by decide) hh
  have b := LibraryTerm.amplitude (m := exMachine) 2 4 true 1 false t (by decide) ht
  have gh := hamiltonian_good_from hh
  have gt := cluster_good (singleRef := false) ht
  have hd : DisjointLabels h t := disjointLabels_of_numbers (N := 4) (fun i hi => by have := gh.2.2.2.2.2 i hi; omega) (fun i hi => by have := gt.2.2.2.2.2 i hi; omega)
  let o : Options := { maxCu := 1, maxOpen := 8, minOpen := 0, forCommutator := false, expandHole := true, nProcess := 2, hermitian := true }
  obtain ⟨w1, w2, w3, w4, w5⟩ := fockSpace_world
  refine ⟨h, t, o, a, b, by decide, rfl, hd, ?_, Int.le_refl _, ?_, rfl,
    (C76_contract_terms _ c l p o (by decide) [h, t] (by simp) (by simp [a, b]) (by simpa using hd) 1).2,
    (C76_single_commutator _ c l p o (by decide) h t a b hd 1).2, w1, w2, w3, w4, twoFermions_fermions, fockSpace_normalOrdered, w5⟩
  · rw [hc, hc']
    unfold Negligible
    norm_num [Nat.factorial]
  · unfold nOperators
    simp only [List.map_cons, List.map_nil, eu, el, fu, fl, hu, hl, tu, tl, if_true]
    simp [Indices.size, consecutive]

end Dsrg
