import Verif.Lemmas.ContractValue
import Verif.Props.PhysOp

/-!
Property C66: the terms returned by `contract_terms` and `single_commutator` add up to the sum over all allowed contractions.
-/

namespace Dsrg

section
variable {O R M : Type} [Fintype O] [DecidableEq O] [Inhabited O] [CommRing R] [Algebra ℚ R] [AddCommGroup M] [Module R M]

/-- C66: the value of the terms returned by `contract_terms` (not for commutators) is the sum over all allowed contractions of the
product, whatever the number of processes, the batches, the expansion of hole densities, the simplification and SymPy do. -/
theorem C66_contract_terms (m : Machine) (hcanon : CanonContract m.canon) (hord : m.ord.Lawful) (o : Options) (hf : o.forCommutator = false)
    (terms : List Term) (h : OrdinaryFactors terms) (hk : ContractibleFactors terms) (h2 : 2 ≤ (properOps terms).length) (scale : ℚ)
    (hc : ¬ Negligible (scale * (terms.map Term.coeff).prod)) (out : List Term) (hr : ContractRun m o terms scale out)
    (orb : Orbitals O) (I : Interp O R M) (hI : I.SlotSymmetric true o.hermitian) (hph : I.Physical orb) (hac : I.ActiveCumulants orb)
    (hna : I.NoActiveAmplitudes orb) :
    IsContraction I orb (scale * (terms.map Term.coeff).prod) (allTensors terms) (properOps terms) o.maxCu o.maxOpen o.minOpen
      (out.map fun t => I.value orb t.coeff t.tensors t.sqOp).sum := by
  have e : productCoeff terms scale = scale * (terms.map Term.coeff).prod := productCoeff_eq terms scale
  rw [← e] at hc ⊢
  rw [properOps_eq] at h2
  obtain ⟨batches, hb, hv⟩ := hr.value hcanon hord h hk hc (by omega) hI hph hac hna
  obtain ⟨cs, h1, h3, -, hperm⟩ := contractions_spec (goodOps_productOps h.ops) hb
  have h3' : ∀ ts, (∃ c ∈ cs, c.Perm ts) ↔ Allowed (productOps terms) o.maxCu o.maxOpen o.minOpen ts := by
    intro ts; rw [h3]; unfold Found; rw [if_neg (by simp [hf])]
  have := isContraction_rows h o.maxCu o.maxOpen o.minOpen o.expandHole (productCoeff terms scale) hph h1 h3'
  rw [hv]
  simp only [rowsValue_perm I _ hperm]
  exact this

/-- C66 for `single_commutator`: the value of the returned terms is the difference of the contractions of the two products, also in the
mode that leaves out contractions that cancel. -/
theorem C66_single_commutator (m : Machine) (hcanon : CanonContract m.canon) (hord : m.ord.Lawful) (o : Options)
    (a b : Term) (h : OrdinaryFactors [a, b]) (hk : ContractibleFactors [a, b])
    (ha : a.sqOp.upper.list ≠ [] ∨ a.sqOp.lower.list ≠ []) (hb : b.sqOp.upper.list ≠ [] ∨ b.sqOp.lower.list ≠ [])
    (heven : o.forCommutator = true → Even (a.sqOp.upper.list.length + a.sqOp.lower.list.length) ∨
      Even (b.sqOp.upper.list.length + b.sqOp.lower.list.length)) (scale : ℚ)
    (hc : ¬ Negligible (scale * (a.coeff * b.coeff))) (out : List Term) (hr : CommutatorRun m o a b scale out)
    (orb : Orbitals O) (I : Interp O R M) (hI : I.SlotSymmetric true o.hermitian) (hph : I.Physical orb) (hac : I.ActiveCumulants orb)
    (hna : I.NoActiveAmplitudes orb) :
    ∃ V W, IsContraction I orb (scale * (a.coeff * b.coeff)) (a.tensors ++ b.tensors) [a.sqOp, b.sqOp] o.maxCu o.maxOpen o.minOpen V ∧
      IsContraction I orb (scale * (a.coeff * b.coeff)) (b.tensors ++ a.tensors) [b.sqOp, a.sqOp] o.maxCu o.maxOpen o.minOpen W ∧
      (out.map fun t => I.value orb t.coeff t.tensors t.sqOp).sum = V - W := by
  have hpo : productOps [a, b] = [a.sqOp, b.sqOp] := by
    rw [← properOps_eq]; unfold properOps; simp only [List.map_cons, List.map_nil, List.filter_cons, decide_eq_true ha, decide_eq_true hb, if_true, List.filter_nil]
  have hpo' : productOps [b, a] = [b.sqOp, a.sqOp] := by
    rw [← properOps_eq]; unfold properOps; simp only [List.map_cons, List.map_nil, List.filter_cons, decide_eq_true ha, decide_eq_true hb, if_true, List.filter_nil]
  have hG : GoodOps [a.sqOp, b.sqOp] := h.ops
  have h2 : ¬ (productOps [a, b]).length < 2 := by rw [hpo]; simp
  have h2' : ¬ (productOps [b, a]).length < 2 := by rw [hpo']; simp
  have ec : productCoeff [a, b] scale = scale * (a.coeff * b.coeff) := by rw [productCoeff_eq]; simp
  have ec' : productCoeff [b, a] (-1 * scale) = -(scale * (a.coeff * b.coeff)) := by rw [productCoeff_eq]; simp [mul_comm]
  obtain ⟨o₁, o₂, h1, h3, hcb⟩ := hr.parts h2
  have hc' : ¬ Negligible (-(scale * (a.coeff * b.coeff))) := by
    rintro ⟨k1, k2⟩
    exact hc ⟨by simpa using k1, by rwa [abs_neg] at k2⟩
  obtain ⟨B₁, hB₁, v₁⟩ := h1.value hcanon hord h hk (by rw [ec]; exact hc) h2 hI hph hac hna
  obtain ⟨B₂, hB₂, v₂⟩ := h3.value hcanon hord h.swap hk.swap (by rw [ec']; exact hc') h2' hI hph hac hna
  have hsum : (out.map fun t => I.value orb t.coeff t.tensors t.sqOp).sum =
      (o₁.map fun t => I.value orb t.coeff t.tensors t.sqOp).sum + (o₂.map fun t => I.value orb t.coeff t.tensors t.sqOp).sum := by
    obtain ⟨-, r₁, -, -, -, m₁, l₁⟩ := h1.totals h h2
    obtain ⟨-, r₂, -, -, -, m₂, l₂⟩ := h3.totals h.swap h2'
    obtain ⟨k1, rfl, k2⟩ := CommutatorRun.total h l₁ l₂ (fun r hr => (m₁ r hr).1) (fun r hr => (m₂ r hr).1) hcb
    rw [← List.sum_append, ← List.map_append]
    refine sum_value_of_total I orb fun t => ?_
    refine totalCoeff_combine_of_multiple_total k1 (c := productCoeff [a, b] scale) (fun t => ?_) t
    rw [k2]
    refine (Multiple.totalCoeff (fun r hr => (m₁ r hr).2) t).add (Multiple.totalCoeff (fun r hr => ?_) t)
    obtain ⟨n, e1, e2⟩ := (m₂ r hr).2
    rw [ec'] at e1 e2
    rw [ec]
    exact ⟨-n, by rw [e1]; push_cast; ring, by rw [abs_neg] at e2; simpa using e2⟩
  obtain ⟨G₁, hG₁⟩ := C34_general_total [a.sqOp, b.sqOp] hG o.maxCu o.maxOpen o.minOpen o.expandHole false
  obtain ⟨G₂, hG₂⟩ := C34_general_total [b.sqOp, a.sqOp] hG.symm o.maxCu o.maxOpen o.minOpen o.expandHole false
  have key : ∀ σ : Index → O, I.rowsValue σ B₁.flatten - I.rowsValue σ B₂.flatten = I.rowsValue σ G₁.flatten - I.rowsValue σ G₂.flatten := by
    intro σ
    rw [hpo] at hB₁
    rw [hpo'] at hB₂
    unfold ContractionsRun at hB₁ hB₂
    by_cases hcm : o.forCommutator = true
    · rw [if_pos hcm] at hB₁ hB₂
      exact (C35_commutator a.sqOp b.sqOp hG (heven hcm) _ _ _ _ false false false false _ _ _ _ hG₁ hG₂ hB₁ hB₂ I (hI.1 rfl) σ).symm
    · rw [if_neg hcm] at hB₁ hB₂
      have e : ∀ {ops : List SqOp} {B G : List (List Row)}, GoodOps ops → GeneralRun ops o.maxCu o.maxOpen o.minOpen o.expandHole false B →
          GeneralRun ops o.maxCu o.maxOpen o.minOpen o.expandHole false G → I.rowsValue σ B.flatten = I.rowsValue σ G.flatten := by
        intro ops B G hG hB hG'
        obtain ⟨cs, s1, s2, s3⟩ := general_spec hG hB
        obtain ⟨ds, t1, t2, t3⟩ := general_spec hG hG'
        rw [rowsValue_perm I σ s3.flatten, rowsValue_perm I σ t3.flatten, ← List.flatMap_def, ← List.flatMap_def, rowsValue_flatMap,
          rowsValue_flatMap]
        refine sum_classes s1 t1 (fun ts => (s2 ts).trans (t2 ts).symm) _ ?_
        intro c hc d hp
        rw [rowsValue_resultRows, rowsValue_resultRows]
        exact (contractionValue_perm I σ hG _ (((s2 c).1 ⟨c, hc, List.Perm.refl _⟩).proper hG) hp).symm
      rw [e hG hB₁ hG₁, e hG.symm hB₂ hG₂]
  obtain ⟨cs, s1, s2, s3⟩ := general_spec hG hG₁
  obtain ⟨ds, t1, t2, t3⟩ := general_spec hG.symm hG₂
  have hV := isContraction_rows h o.maxCu o.maxOpen o.minOpen o.expandHole (scale * (a.coeff * b.coeff)) hph s1 (by rw [hpo]; exact s2)
  have hW := isContraction_rows h.swap o.maxCu o.maxOpen o.minOpen o.expandHole (scale * (a.coeff * b.coeff)) hph t1 (by rw [hpo']; exact t2)
  rw [properOps_eq, hpo] at hV
  rw [properOps_eq, hpo'] at hW
  have ea : allTensors [a, b] = a.tensors ++ b.tensors := by simp [allTensors]
  have eb : allTensors [b, a] = b.tensors ++ a.tensors := by simp [allTensors]
  refine ⟨_, _, ea ▸ hV, eb ▸ hW, ?_⟩
  rw [hsum, v₁, v₂, ec, ec', map_neg, neg_smul, ← sub_eq_add_neg, allLabels_swap, ← smul_sub, ← smul_sub, ← Finset.sum_sub_distrib,
    ← Finset.sum_sub_distrib]
  congr 1
  refine Finset.sum_congr rfl fun σ _ => ?_
  rw [← ea, ← eb, Interp.pval_perm I (extendTo σ) (productTensors_swap b a), ← smul_sub, ← smul_sub, key]
  rw [rowsValue_perm I _ s3.flatten, rowsValue_perm I _ t3.flatten, ← List.flatMap_def, ← List.flatMap_def]

end

/-! ### Example -/

theorem exContractible : ContractibleFactors [exLeft, exRight] where
  labels := by decide +kernel
  separated := by
    refine ⟨?_, ?_, ?_⟩
    · have hne : ∀ a ∈ allTensors [exLeft, exRight], ¬ (a.cls = .kronecker ∨ a.cls = .cumulant) := by decide +kernel
      refine List.pairwise_of_forall_mem_list fun a ha b hb hor => ?_
      rcases hor with ⟨-, h⟩ | ⟨h, -⟩
      · exact absurd h (hne b hb)
      · exact absurd h (hne a ha)
    · have hne : ∀ a ∈ allTensors [exLeft, exRight], ¬ (a.cls = .kronecker ∨ a.cls = .cumulant) := by decide +kernel
      intro a ha had
      rcases had with h | ⟨-, h, -⟩
      · exact absurd (Or.inl h) (hne a ha)
      · exact absurd (Or.inr h) (hne a ha)
    · decide +kernel
  closed := by decide +kernel
  offDiagonal := by decide +kernel
  balanced := by decide +kernel

/-- Orbital 0 is core, orbital 1 virtual. -/
def coreVirtual : Orbitals (Fin 2) := ⟨fun o => if o = 0 then .core else .virt, fun _ => false⟩

/-- Antisymmetric in two orbitals. -/
def slaterSign : List (Fin 2) → ℚ
  | [] => 1
  | [_] => 1
  | [a, b] => pairSign [a, b]
  | _ => 0

theorem slaterSign_swap (pre post : List (Fin 2)) (a b : Fin 2) : slaterSign (pre ++ b :: a :: post) = -slaterSign (pre ++ a :: b :: post) := by
  match pre, post with
  | [], [] => exact pairSign_swap [] [] a b
  | [], _ :: _ => simp [slaterSign]
  | [_], _ => simp [slaterSign]
  | _ :: _ :: _, _ => simp [slaterSign]

/-- One determinant: the density is one on the core orbital, there are no cumulants, other one-body tensors are one. -/
def meanField : Interp (Fin 2) ℚ ℚ where
  tensor cls _ u l := match cls, u, l with
    | .kronecker, [a], [b] => if a = b then 1 else 0
    | .cumulant, [a], [b] => if a = 0 ∧ b = 0 then 1 else 0
    | .hole, [a], [b] => if a = 1 ∧ b = 1 then 1 else 0
    | _, [_], [_] => 1
    | _, _, _ => 0
  op u l := slaterSign u * slaterSign l

theorem meanField_tensor (cls : TCls) (name : PyStr) (u l : List (Fin 2)) (h : ¬ (u.length = 1 ∧ l.length = 1)) : meanField.tensor cls name u l = 0 := by
  match u, l with
  | [], _ => cases cls <;> rfl
  | _ :: _ :: _, _ => cases cls <;> rfl
  | [_], [] => cases cls <;> rfl
  | [_], _ :: _ :: _ => cases cls <;> rfl
  | [_], [_] => simp at h

/-- The hypotheses of C66 can be met: the product of C54_example in the world of one determinant. -/
theorem C66_example : ∃ (m : Machine) (out : List Term), CanonContract m.canon ∧ m.ord.Lawful ∧ OrdinaryFactors [exLeft, exRight] ∧
    ContractibleFactors [exLeft, exRight] ∧ ContractRun m exOptions [exLeft, exRight] 1 out ∧ out.length = 3 ∧
    meanField.SlotSymmetric true exOptions.hermitian ∧ meanField.Physical coreVirtual ∧ meanField.ActiveCumulants coreVirtual ∧
    meanField.NoActiveAmplitudes coreVirtual := by
  obtain ⟨out, h1, h2⟩ := exists_of_map (x := contractExec ⟨safeCanon, SetOrder.sorted, 4⟩ exOptions [exLeft, exRight] 1)
    (f := fun out => out.length) (b := 3) (by decide +kernel)
  have h1' := contractExec_lazy h1
  refine ⟨⟨lazyCanon, SetOrder.sorted, 4⟩, out, lazyCanon_contract, SetOrder.sorted_lawful, exFactors, exContractible,
    contractExec_run (by simp) (by decide +kernel) rfl (exSmall (by decide +kernel)) h1', h2, ⟨fun _ => ?_, by simp, fun _ => ?_⟩, ?_, ?_, ?_⟩
  · refine ⟨?_, ?_, fun pre a b post l => by simp [meanField, slaterSign_swap pre post a b],
      fun u pre a b post => by simp [meanField, slaterSign_swap pre post a b]⟩
    · intro cls name pre a b post l
      rw [meanField_tensor _ _ _ _ (by simp; omega), meanField_tensor _ _ _ _ (by simp; omega), neg_zero]
    · intro cls name u pre a b post
      rw [meanField_tensor _ _ _ _ (by simp; omega), meanField_tensor _ _ _ _ (by simp; omega), neg_zero]
  · intro cls name u l
    by_cases h : u.length = 1 ∧ l.length = 1
    · obtain ⟨hu, hl⟩ := h
      obtain ⟨a, rfl⟩ := List.length_eq_one_iff.1 hu
      obtain ⟨b, rfl⟩ := List.length_eq_one_iff.1 hl
      cases cls <;> simp only [meanField] <;> revert a b <;> decide
    · rw [meanField_tensor _ _ _ _ h, meanField_tensor _ _ _ _ (by tauto)]
  · refine ⟨fun _ => ?_, fun _ => ?_, fun _ => ?_, fun _ => ?_, fun _ => ?_⟩ <;> simp only [meanField] <;> decide +kernel
  · intro name u l hu _
    exact meanField_tensor _ _ _ _ (by tauto)
  · intro name u l h
    by_cases hl : u.length = 1 ∧ l.length = 1
    · obtain ⟨a, rfl⟩ := List.length_eq_one_iff.1 hl.1
      have := h a (by simp)
      exfalso
      revert this
      clear h hl
      revert a; decide
    · exact meanField_tensor _ _ _ _ hl

end Dsrg
