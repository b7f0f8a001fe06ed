import Verif.Lemmas.PhysOpRun
import Verif.Props.Sympy
import Verif.Props.HoleDensity
import Verif.Props.Commutator

/-!
The value of the terms returned by `contract_terms`.
-/

namespace Dsrg

theorem size_eq_zero (x : IndicesPair) : x.size = 0 ↔ x.upper.list = [] ∧ x.lower.list = [] := by
  have : x.size = x.upper.list.length + x.lower.list.length := rfl
  rw [this, Nat.add_eq_zero_iff, List.length_eq_zero_iff, List.length_eq_zero_iff]

theorem properOps_eq (terms : List Term) : properOps terms = productOps terms := by
  unfold properOps productOps
  refine List.filter_congr fun op _ => ?_
  rw [decide_eq_decide]
  exact not_and_or.symm.trans (not_congr (size_eq_zero op)).symm

theorem allTensors_eq (terms : List Term) : allTensors terms = productTensors terms := rfl

/-- The labels of the product are those of the terms. -/
theorem operatorLabels_perm (terms : List Term) : ((productWord (productOps terms)).map Prod.snd).Perm (operatorLabels terms) := by
  induction terms with
  | nil => exact List.Perm.refl _
  | cons t terms ih =>
    have e : operatorLabels (t :: terms) = (t.sqOp.upper.list ++ t.sqOp.lower.list) ++ operatorLabels terms := by
      unfold operatorLabels; rw [List.flatMap_cons]
    rw [e]
    by_cases h0 : t.sqOp.size = 0
    · have h1 : productOps (t :: terms) = productOps terms := by
        unfold productOps; rw [List.map_cons, List.filter_cons, if_neg (by simpa using h0)]
      have h2 := (size_eq_zero _).1 h0
      rw [h1, h2.1, h2.2]
      exact ih
    · have h1 : productOps (t :: terms) = t.sqOp :: productOps terms := by
        unfold productOps; rw [List.map_cons, List.filter_cons, if_pos (by simpa using h0)]
      rw [h1]
      unfold productWord
      rw [List.flatMap_cons, List.map_append]
      refine List.Perm.append ?_ ih
      unfold stringWord
      rw [List.map_append, List.map_map, List.map_map]
      simp only [Function.comp_def, List.map_id']
      exact (List.Perm.refl _).append (List.reverse_perm _)

theorem marked_snd (x : IndicesPair) : (marked x).map Prod.snd = x.upper.list ++ x.lower.list := by
  simp [marked, Function.comp_def]

/-- All labels of the densities and the remaining operator. -/
theorem row_labels {terms : List Term} {maxOpen minOpen : Int} {row : Row} (hc : Conserves (productOps terms) maxOpen minOpen row) :
    (row.2.1.flatMap (fun d => d.upper.list ++ d.lower.list) ++ (row.2.2.upper.list ++ row.2.2.lower.list)).Perm (operatorLabels terms) := by
  have h := hc.labels.map Prod.snd
  rw [List.map_append, marked_snd, List.map_flatMap, List.flatMap_map] at h
  have e : (fun d : Tensor => (marked d.pair).map Prod.snd) = fun d => d.upper.list ++ d.lower.list := by
    funext d; exact marked_snd _
  rw [e] at h
  exact h.trans (operatorLabels_perm terms)

theorem countTrue_stringWord (op : SqOp) : (stringWord op).countP (fun x => x.1) = op.upper.list.length ∧
    (stringWord op).countP (fun x => !x.1) = op.lower.list.length := by
  simp [stringWord, List.countP_append, List.countP_map, Function.comp_def]

theorem countTrue_marked (op : IndicesPair) : (marked op).countP (fun x => x.1) = op.upper.list.length ∧
    (marked op).countP (fun x => !x.1) = op.lower.list.length := by
  simp [marked, List.countP_append, List.countP_map, Function.comp_def]

theorem balanced_ops (terms : List Term) :
    (productWord (productOps terms)).countP (fun x => x.1) = (terms.map fun t => t.sqOp.upper.list.length).sum ∧
    (productWord (productOps terms)).countP (fun x => !x.1) = (terms.map fun t => t.sqOp.lower.list.length).sum := by
  induction terms with
  | nil => exact ⟨rfl, rfl⟩
  | cons t terms ih =>
    rw [List.map_cons, List.map_cons, List.sum_cons, List.sum_cons]
    by_cases h0 : t.sqOp.size = 0
    · have h1 : productOps (t :: terms) = productOps terms := by
        unfold productOps; rw [List.map_cons, List.filter_cons, if_neg (by simpa using h0)]
      have h2 := (size_eq_zero _).1 h0
      rw [h1, h2.1, h2.2]
      simpa using ih
    · have h1 : productOps (t :: terms) = t.sqOp :: productOps terms := by
        unfold productOps; rw [List.map_cons, List.filter_cons, if_pos (by simpa using h0)]
      rw [h1]
      unfold productWord
      rw [List.flatMap_cons, List.countP_append, List.countP_append, (countTrue_stringWord _).1, (countTrue_stringWord _).2]
      exact ⟨congrArg _ ih.1, congrArg _ ih.2⟩

/-- The relation between a row and its composite contraction. -/
theorem row_of_mem {ops : List SqOp} {expand : Bool} {c : List Tensor} {row : Row} (h : row ∈ resultRows ops expand c) :
    (row.2.1.map Tensor.pair).Perm (c.map Tensor.pair) ∧ row.2.2 = openOp ops c := by
  unfold resultRows at h
  obtain ⟨q, hq, rfl⟩ := List.mem_map.1 h
  cases expand with
  | false => simp only [Bool.false_eq_true, if_false, List.mem_singleton] at hq; subst hq; exact ⟨List.Perm.refl _, rfl⟩
  | true => exact ⟨(expandHoleDensities_labels c q hq).2, rfl⟩

/-- The remaining operator has as many creation as annihilation operators. -/
theorem row_balanced {terms : List Term} (h : OrdinaryFactors terms) (hk : ContractibleFactors terms) {maxCu maxOpen minOpen : Int}
    {expand : Bool} {c : List Tensor} (hA : Allowed (productOps terms) maxCu maxOpen minOpen c) {row : Row}
    (hrow : row ∈ resultRows (productOps terms) expand c) : row.2.2.upper.list.length = row.2.2.lower.list.length := by
  have hG := goodOps_productOps h.ops
  have hl := (conserves hG hA expand row hrow).labels
  have h1 := hl.countP_eq (fun x => x.1)
  have h2 := hl.countP_eq (fun x => !x.1)
  rw [(balanced_ops terms).1, List.countP_append, (countTrue_marked _).1, List.countP_flatMap] at h1
  rw [(balanced_ops terms).2, List.countP_append, (countTrue_marked _).2, List.countP_flatMap] at h2
  have hp := (row_of_mem hrow).1
  have hs : ((row.2.1.map Tensor.pair).map (List.countP (fun x : Bool × Index => x.1) ∘ marked)).sum =
      ((row.2.1.map Tensor.pair).map (List.countP (fun x : Bool × Index => !x.1) ∘ marked)).sum := by
    rw [(hp.map _).sum_eq, (hp.map _).sum_eq, List.map_map, List.map_map]
    congr 1
    refine List.map_congr_left fun t ht => ?_
    simp only [Function.comp_def]
    rw [(countTrue_marked _).1, (countTrue_marked _).2]
    exact (proper_of_elementary hG (hA.elementary t ht)).size
  have hb := hk.balanced
  omega

theorem nodup_flatMap_pairwise {α β : Type} {f : α → List β} {l : List α} (h : (l.flatMap f).Nodup) :
    l.Pairwise fun a b => ∀ i ∈ f a, i ∉ f b := by
  rw [List.nodup_flatMap] at h
  exact h.2.imp fun hd i hi hi' => hd hi hi'

theorem active_of_cumulantLegs {part : SqOp → List Index} {ops : List SqOp} {l : List (Nat × Index)} (h : l.Sublist (cumulantLegs part ops)) :
    ∀ i ∈ l.map Prod.snd, i.space.kind.Denotes .active := by
  intro i hi
  obtain ⟨x, hx, rfl⟩ := List.mem_map.1 hi
  have := h.subset hx
  unfold cumulantLegs at this
  obtain ⟨op, -, hm⟩ := List.mem_flatMap.1 this
  obtain ⟨j, hj, rfl⟩ := List.mem_map.1 hm
  have hne := of_decide_eq_true (List.mem_filter.1 hj).2
  simp only
  revert hne
  cases j.space.kind <;> decide

/-- The term of a row has separated deltas. -/
theorem row_separated {terms : List Term} (h : OrdinaryFactors terms) (hk : ContractibleFactors terms) {maxCu maxOpen minOpen : Int}
    {expand : Bool} {c : List Tensor} (hA : Allowed (productOps terms) maxCu maxOpen minOpen c) {row : Row}
    (hrow : row ∈ resultRows (productOps terms) expand c) : Separated true (allTensors terms ++ row.2.1) row.2.2 := by
  have hG := goodOps_productOps h.ops
  have hl := row_labels (conserves hG hA expand row hrow)
  have hnd := hl.symm.nodup hk.labels
  have hnd1 := (List.nodup_append.1 hnd).1
  have hnd2 := (List.nodup_append.1 hnd).2.1
  have hsub : ∀ d ∈ row.2.1, ∀ i ∈ d.upper.list ++ d.lower.list, i ∈ operatorLabels terms := by
    intro d hd i hi
    exact hl.mem_iff.1 (List.mem_append_left _ (List.mem_flatMap.2 ⟨d, hd, hi⟩))
  have hdd : ∀ d ∈ row.2.1, ∀ i, ¬ (i ∈ d.upper.list ∧ i ∈ d.lower.list) := by
    intro d hd i hi
    have := (List.nodup_flatMap.1 hnd1).1 d hd
    exact (List.nodup_append.1 this).2.2 i hi.1 i hi.2 rfl
  have hod : ∀ i, ¬ (i ∈ row.2.2.upper.list ∧ i ∈ row.2.2.lower.list) := by
    intro i hi
    exact (List.nodup_append.1 hnd2).2.2 i hi.1 i hi.2 rfl
  have hdc : ∀ {a : Tensor}, ActsAsDelta true a → a.cls = .kronecker ∨ a.cls = .cumulant := by
    rintro a (h | ⟨-, h, -⟩)
    · exact Or.inl h
    · exact Or.inr h
  constructor
  · rw [List.pairwise_append]
    refine ⟨hk.separated.apart, ?_, ?_⟩
    · exact List.Pairwise.imp (fun {a b} hab => fun _ => hab) (nodup_flatMap_pairwise hnd1)
    · intro a ha b hb hor i hi hib
      have hac : a.cls = .kronecker ∨ a.cls = .cumulant := by
        rcases hor with hor | hor
        · exact hdc hor.1
        · exact hor.1
      exact hk.closed a ha hac i hi (hsub b hb i hib)
  · intro a ha had i hi
    refine ⟨fun b hb => ?_, hod i⟩
    rcases List.mem_append.1 hb with hb | hb
    · rcases List.mem_append.1 ha with ha | ha
      · exact (hk.separated.diag a ha had i hi).1 b hb
      · exact hk.offDiagonal b hb i (hsub a ha i hi)
    · exact hdd b hb i
  · intro a ha hac hlen i hi
    rcases List.mem_append.1 ha with ha | ha
    · exact hk.separated.active a ha hac hlen i hi
    · have : a.pair ∈ c.map Tensor.pair := (row_of_mem hrow).1.mem_iff.1 (List.mem_map.2 ⟨a, ha, rfl⟩)
      obtain ⟨t, ht, e⟩ := List.mem_map.1 this
      have hu : a.upper = t.upper := by show a.pair.upper = t.pair.upper; rw [e]
      have hlo : a.lower = t.lower := by show a.pair.lower = t.pair.lower; rw [e]
      rw [hu] at hlen hi
      rw [hlo] at hi
      obtain ⟨key, hp | hp⟩ := hA.elementary t ht
      · obtain ⟨_, _, _, _, -, -, -, hp⟩ := hp
        rcases hp with ⟨u, -, l, -, -, -, rfl⟩ | ⟨l, -, u, -, -, -, rfl⟩ <;> exact absurd rfl hlen
      · obtain ⟨cre, ann, hc1, hc2, -, -, -, -, -, rfl⟩ := hp
        rcases List.mem_append.1 hi with hi | hi
        · exact active_of_cumulantLegs hc1 i hi
        · exact active_of_cumulantLegs hc2 i hi

/-- The labels of the term of a row do not depend on the row. -/
theorem row_labelsOf {terms : List Term} {maxOpen minOpen : Int} {row : Row} (hc : Conserves (productOps terms) maxOpen minOpen row) :
    labelsOf (allTensors terms ++ row.2.1) row.2.2 =
      ((allTensors terms).flatMap (fun t => t.upper.list ++ t.lower.list) ++ operatorLabels terms).toFinset := by
  have hl := row_labels hc
  unfold labelsOf
  ext i
  simp only [List.mem_toFinset, List.mem_append, List.flatMap_append]
  have := hl.mem_iff (a := i)
  simp only [List.mem_append] at this
  tauto

section
variable {O R M : Type} [Fintype O] [DecidableEq O] [Inhabited O] [CommRing R] [Algebra ℚ R] [AddCommGroup M] [Module R M]

/-- Rows with common labels are summed assignment by assignment. -/
theorem sum_rows_value (I : Interp O R M) (orb : Orbitals O) (c : ℚ) (ts : List Tensor) (S : Finset Index) : ∀ rows : List Row,
    (∀ row ∈ rows, labelsOf (ts ++ row.2.1) row.2.2 = S) →
    (rows.map fun row => I.value orb (row.1 * c) (ts ++ row.2.1) row.2.2).sum =
      (algebraMap ℚ R c) • ∑ σ ∈ orb.assignments S, I.pval (extendTo σ) ts • I.rowsValue (extendTo σ) rows := by
  intro rows
  induction rows with
  | nil => intro _; simp [Interp.rowsValue]
  | cons row rows ih =>
    intro h
    rw [List.map_cons, List.sum_cons, ih fun r hr => h r (List.mem_cons_of_mem _ hr)]
    unfold Interp.value
    rw [h row List.mem_cons_self, map_mul, map_intCast, mul_comm, mul_smul, ← smul_add, Finset.smul_sum, ← Finset.sum_add_distrib]
    congr 1
    refine Finset.sum_congr rfl fun σ _ => ?_
    rw [Interp.pval_append, Interp.rowsValue, Interp.rowsValue, List.map_cons, List.sum_cons, smul_add, mul_smul,
      smul_comm (row.1 : R)]

theorem extendTo_in (orb : Orbitals O) {S : Finset Index} {σ : S → O} (hσ : σ ∈ orb.assignments S) : ∀ i ∈ S, orb.In i.space (extendTo σ i) := by
  intro i hi
  unfold Orbitals.assignments at hσ
  have := Fintype.mem_piFinset.1 hσ ⟨i, hi⟩
  unfold extendTo
  rw [dif_pos hi]
  exact (Finset.mem_filter.1 this).2

theorem make_hole_of_elementary {ops : List SqOp} (hG : GoodOps ops) {maxCu : Int} {t : Tensor} (h : Elementary ops maxCu t) (hc : t.cls = .hole) :
    Tensor.make .hole t.upper t.lower t.name t.priority = .ok t := by
  obtain ⟨key, hp | hp⟩ := h
  · obtain ⟨i, j, left, right, -, hi, hj, hp⟩ := hp
    rcases hp with ⟨u, -, l, -, -, -, rfl⟩ | ⟨l, hl, u, hu, -, -, rfl⟩
    · exact absurd hc (by simp [density])
    · have b1 := (hG.so left (List.mem_of_getElem? hi)).not_beta.2 l hl
      have b2 := (hG.so right (List.mem_of_getElem? hj)).not_beta.1 u hu
      simp [Tensor.make, density, IndicesPair.make, requireOneBody, requireSpinConserving, IndicesPair.isSpinConserving, IndicesPair.nUpper, IndicesPair.nLower, bind, Except.bind, pure, Except.pure, Tensor.upper, Tensor.lower, Indices.size, Indices.nBeta, b1, b2]
  · obtain ⟨cre, ann, -, -, -, -, -, -, -, rfl⟩ := hp
    exact absurd hc (by simp [density])

/-- The rows of a composite contraction have the value of the contraction. -/
theorem rowsValue_contraction {I : Interp O R M} {orb : Orbitals O} (hph : I.Physical orb) {ops : List SqOp} (hG : GoodOps ops) {maxCu maxOpen minOpen : Int}
    {c : List Tensor} (hA : Allowed ops maxCu maxOpen minOpen c) (expand : Bool) {σ : Index → O}
    (hσ : ∀ t ∈ c, ∀ i ∈ t.pair.indices, orb.In i.space (σ i)) :
    I.rowsValue σ (resultRows ops expand c) = I.rowsValue σ (resultRows ops false c) := by
  rw [rowsValue_resultRows, rowsValue_resultRows]
  cases expand with
  | false => rfl
  | true =>
    unfold contractionValue
    rw [← sum_expand, C19_expand_hole_densities orb I hph c (fun t ht hc => make_hole_of_elementary hG (hA.elementary t ht) hc) σ hσ]
    unfold Interp.pval factor
    simp

/-- The value of the term returned for a row. -/
theorem canonicalizeRow_value {m : Machine} (hcanon : CanonContract m.canon) (hord : m.ord.Lawful) {terms : List Term}
    (h : OrdinaryFactors terms) (hk : ContractibleFactors terms) {c : ℚ} (hc : ¬ Negligible c) {hermitian : Bool}
    {maxCu maxOpen minOpen : Int} {expand : Bool} {ts : List Tensor} (hA : Allowed (productOps terms) maxCu maxOpen minOpen ts) {row : Row}
    (hrow : row ∈ resultRows (productOps terms) expand ts) (hs : row.1 = 1 ∨ row.1 = -1) {r : Term}
    (hr : canonicalizeRow m (productTensors terms) c hermitian row = .ok r)
    {orb : Orbitals O} {I : Interp O R M} (hI : I.SlotSymmetric true hermitian) (hph : I.Physical orb) (hac : I.ActiveCumulants orb)
    (hna : I.NoActiveAmplitudes orb) :
    I.value orb r.coeff r.tensors r.sqOp = I.value orb (row.1 * c) (allTensors terms ++ row.2.1) row.2.2 := by
  unfold canonicalizeRow at hr
  simp only [bind, Except.bind] at hr
  cases ht : Term.make (productTensors terms ++ row.2.1) row.2.2 (row.1 * c) with
  | error e => rw [ht] at hr; simp at hr
  | ok t =>
    rw [ht] at hr
    simp only [] at hr
    have hty : row.2.2.upper.ty = .spinOrbital := by rw [(row_of_mem hrow).2]; rfl
    have hd := resultRows_density hA row hrow
    have hko : ∀ x ∈ productTensors terms ++ row.2.1, KindOk terms x := by
      intro x hx
      rcases List.mem_append.1 hx with hx | hx
      · obtain ⟨t, ht, hx⟩ := List.mem_flatMap.1 hx
        exact Or.inl ⟨t, ht, x, hx, rfl⟩
      · exact Or.inr ⟨x, hd x hx, rfl⟩
    refine C43_value_partial m.canon hcanon m.ord hord _ _ _ t r ht true true hermitian (row_separated h hk hA hrow) hr ?_
      (row_balanced h hk hA hrow) (fun x hx y hy e => (h.consistent (hko x hx) (hko y hy) e).1) orb I (by rw [hty]; exact hI) hph hac
      (fun _ => hna)
    unfold Negligible at hc
    by_cases h0 : c = 0
    · left; rw [h0, mul_zero]
    · right
      have : 1 / 10 ^ 15 ≤ |c| := by
        by_contra hlt
        exact hc ⟨h0, not_le.1 hlt⟩
      rcases hs with hs | hs <;> rw [hs] <;> simpa using this

/-- The sum of values is determined by the total coefficients. -/
theorem sum_value_of_total (I : Interp O R M) (orb : Orbitals O) {l l' : List Term} (h : ∀ t, totalCoeff l t = totalCoeff l' t) :
    (l.map fun t => I.value orb t.coeff t.tensors t.sqOp).sum = (l'.map fun t => I.value orb t.coeff t.tensors t.sqOp).sum := by
  letI : Module ℚ M := Module.compHom M (algebraMap ℚ R)
  have hv : ∀ (c : ℚ) ts op, I.value orb c ts op = c • I.value orb 1 ts op := by
    intro c ts op
    show I.value orb c ts op = (algebraMap ℚ R c) • I.value orb 1 ts op
    simp [Interp.value]
  have hmap : ∀ l : List Term, (l.map fun t => I.value orb t.coeff t.tensors t.sqOp) =
      l.map fun t => t.coeff • (fun s : List Tensor × SqOp => I.value orb 1 s.1 s.2) (t.tensors, t.sqOp) := by
    intro l; exact List.map_congr_left fun t _ => hv _ _ _
  have htot : ∀ (l : List Term) (s : List Tensor × SqOp), ((l.filter fun t' => (t'.tensors, t'.sqOp) = s).map Term.coeff).sum =
      totalCoeff l ⟨0, s.2, s.1, ∅, fun _ => 0, ∅⟩ := by
    intro l s
    unfold totalCoeff
    congr 2
    refine List.filter_congr fun x _ => ?_
    rw [decide_eq_decide]
    unfold Term.Same
    cases s; simp
  rw [hmap, hmap, sum_terms_eq (fun s : List Tensor × SqOp => I.value orb 1 s.1 s.2) (((l ++ l').map fun t => (t.tensors, t.sqOp)).toFinset) l
      (by intro t ht; rw [List.mem_toFinset]; exact List.mem_map.2 ⟨t, List.mem_append_left _ ht, rfl⟩),
    sum_terms_eq (fun s : List Tensor × SqOp => I.value orb 1 s.1 s.2) (((l ++ l').map fun t => (t.tensors, t.sqOp)).toFinset) l'
      (by intro t ht; rw [List.mem_toFinset]; exact List.mem_map.2 ⟨t, List.mem_append_right _ ht, rfl⟩)]
  refine Finset.sum_congr rfl fun s _ => ?_
  rw [htot, htot, h]

theorem productCoeff_eq (terms : List Term) (scale : ℚ) : productCoeff terms scale = scale * (terms.map Term.coeff).prod := by
  unfold productCoeff
  induction terms generalizing scale with
  | nil => simp
  | cons t ts ih => rw [List.foldl_cons, ih, List.map_cons, List.prod_cons, mul_assoc]

theorem productTensors_swap (a b : Term) : (allTensors [a, b]).Perm (allTensors [b, a]) := by
  unfold allTensors
  exact (List.Perm.swap b a []).flatMap_right _

theorem operatorLabels_swap (a b : Term) : (operatorLabels [a, b]).Perm (operatorLabels [b, a]) := by
  unfold operatorLabels
  exact (List.Perm.swap b a []).flatMap_right _

theorem ContractibleFactors.swap {a b : Term} (h : ContractibleFactors [a, b]) : ContractibleFactors [b, a] where
  labels := (operatorLabels_swap a b).nodup h.labels
  separated := h.separated.perm (productTensors_swap a b)
  closed x hx hc i hi := by
    rw [← (operatorLabels_swap a b).mem_iff]
    exact h.closed x ((productTensors_swap a b).mem_iff.2 hx) hc i hi
  offDiagonal x hx i hi := h.offDiagonal x ((productTensors_swap a b).mem_iff.2 hx) i ((operatorLabels_swap a b).mem_iff.2 hi)
  balanced := by
    have := h.balanced
    simp only [List.map_cons, List.map_nil, List.sum_cons, List.sum_nil] at this ⊢
    omega

/-- All labels of a product. -/
def allLabels (terms : List Term) : Finset Index :=
  ((allTensors terms).flatMap (fun t => t.upper.list ++ t.lower.list) ++ operatorLabels terms).toFinset

/-- The value of the terms returned by `contract_terms`: that of the rows of the enumeration. -/
theorem ContractRun.value {m : Machine} (hcanon : CanonContract m.canon) (hord : m.ord.Lawful) {o : Options} {terms : List Term}
    (h : OrdinaryFactors terms) (hk : ContractibleFactors terms) {scale : ℚ} (hc : ¬ Negligible (productCoeff terms scale))
    {out : List Term} (h2 : ¬ (productOps terms).length < 2) (hr : ContractRun m o terms scale out)
    {orb : Orbitals O} {I : Interp O R M} (hI : I.SlotSymmetric true o.hermitian) (hph : I.Physical orb) (hac : I.ActiveCumulants orb)
    (hna : I.NoActiveAmplitudes orb) :
    ∃ batches, ContractionsRun (productOps terms) o batches ∧
      (out.map fun t => I.value orb t.coeff t.tensors t.sqOp).sum = (algebraMap ℚ R (productCoeff terms scale)) •
        ∑ σ ∈ orb.assignments (allLabels terms), I.pval (extendTo σ) (allTensors terms) • I.rowsValue (extendTo σ) batches.flatten := by
  obtain ⟨batches, results, hb, hf, hrows, -, ho⟩ := hr.totals h h2
  obtain ⟨cs, -, -, hcs, hperm⟩ := contractions_spec (goodOps_productOps h.ops) hb
  have hmem : ∀ row ∈ batches.flatten, ∃ c, Allowed (productOps terms) o.maxCu o.maxOpen o.minOpen c ∧
      row ∈ resultRows (productOps terms) o.expandHole c := by
    intro row hrow
    obtain ⟨c, hc, hrc⟩ := List.mem_flatMap.1 (hperm.mem_iff.1 hrow)
    exact ⟨c, hcs c hc, hrc⟩
  refine ⟨batches, hb, ?_⟩
  rw [sum_value_of_total I orb ho.total, ← sum_rows_value]
  · have : ∀ (rows : List Row) (results : List Term), (∀ row ∈ rows, row ∈ batches.flatten) →
        List.Forall₂ (fun row r => canonicalizeRow m (productTensors terms) (productCoeff terms scale) o.hermitian row = .ok r) rows results →
        (results.map fun t => I.value orb t.coeff t.tensors t.sqOp) =
          rows.map fun row => I.value orb (row.1 * productCoeff terms scale) (allTensors terms ++ row.2.1) row.2.2 := by
      intro rows results hsub hf
      induction hf with
      | nil => rfl
      | @cons row r rows results h1 _ ih =>
        rw [List.map_cons, List.map_cons, ih fun row hr => hsub row (List.mem_cons_of_mem _ hr)]
        congr 1
        obtain ⟨c, hA, hrc⟩ := hmem row (hsub row List.mem_cons_self)
        exact canonicalizeRow_value hcanon hord h hk hc hA hrc (hrows row (hsub row List.mem_cons_self)).2 h1 hI hph hac hna
    rw [this _ _ (fun _ h => h) hf]
  · intro row hrow
    obtain ⟨c, hA, hrc⟩ := hmem row hrow
    exact row_labelsOf (conserves (goodOps_productOps h.ops) hA _ row hrc)

omit [Fintype O] [DecidableEq O] [Inhabited O] [CommRing R] [Algebra ℚ R] [AddCommGroup M] [Module R M] in
theorem allLabels_swap (a b : Term) : allLabels [b, a] = allLabels [a, b] := by
  unfold allLabels
  ext i
  rw [List.mem_toFinset, List.mem_toFinset]
  exact (((productTensors_swap b a).flatMap_right _).append (operatorLabels_swap b a)).mem_iff

/-- The value of the rows of composite contractions is a sum over contractions. -/
theorem contraction_rows_value {terms : List Term} (h : OrdinaryFactors terms) {maxCu maxOpen minOpen : Int} (expand : Bool) (c : ℚ)
    {orb : Orbitals O} {I : Interp O R M} (hph : I.Physical orb) {cs : List (List Tensor)}
    (hA : ∀ a ∈ cs, Allowed (productOps terms) maxCu maxOpen minOpen a) :
    (algebraMap ℚ R c) • ∑ σ ∈ orb.assignments (allLabels terms), I.pval (extendTo σ) (allTensors terms) •
        I.rowsValue (extendTo σ) (cs.flatMap (resultRows (productOps terms) expand)) =
      (cs.map fun a => I.value orb ((relSign (baseOrder (productOps terms)) (arranged (productOps terms) a) : ℤ) * c) (allTensors terms ++ a)
          (openOp (productOps terms) a)).sum := by
  have hG := goodOps_productOps h.ops
  have hl : ∀ row ∈ cs.flatMap (resultRows (productOps terms) false), labelsOf (allTensors terms ++ row.2.1) row.2.2 = allLabels terms := by
    intro row hrow
    obtain ⟨a, ha, hra⟩ := List.mem_flatMap.1 hrow
    exact row_labelsOf (conserves hG (hA a ha) _ row hra)
  have e : ∀ σ ∈ orb.assignments (allLabels terms),
      I.rowsValue (extendTo σ) (cs.flatMap (resultRows (productOps terms) expand)) =
        I.rowsValue (extendTo σ) (cs.flatMap (resultRows (productOps terms) false)) := by
    intro σ hσ
    rw [rowsValue_flatMap, rowsValue_flatMap]
    congr 1
    refine List.map_congr_left fun a ha => rowsValue_contraction hph hG (hA a ha) expand ?_
    intro t ht i hi
    refine extendTo_in orb hσ i ?_
    have hrow : (relSign (baseOrder (productOps terms)) (arranged (productOps terms) a) * 1, a, openOp (productOps terms) a) ∈
        resultRows (productOps terms) false a := by simp [resultRows]
    have := row_labels (conserves hG (hA a ha) _ _ hrow)
    unfold allLabels
    rw [List.mem_toFinset, List.mem_append]
    right
    refine this.mem_iff.1 (List.mem_append_left _ (List.mem_flatMap.2 ⟨t, ht, ?_⟩))
    exact hi
  rw [Finset.sum_congr rfl fun σ hσ => by rw [e σ hσ], ← sum_rows_value I orb c _ _ _ hl, List.map_flatMap]
  have : ∀ l : List (List Tensor), ((l.flatMap fun a => (resultRows (productOps terms) false a).map fun row =>
      I.value orb (row.1 * c) (allTensors terms ++ row.2.1) row.2.2)).sum =
      (l.map fun a => I.value orb ((relSign (baseOrder (productOps terms)) (arranged (productOps terms) a) : ℤ) * c) (allTensors terms ++ a)
        (openOp (productOps terms) a)).sum := by
    intro l
    induction l with
    | nil => rfl
    | cons a l ih => rw [List.flatMap_cons, List.sum_append, ih, List.map_cons, List.sum_cons]; simp [resultRows]
  exact this cs

/-- The value of the rows of all composite contractions is a sum over contractions. -/
theorem isContraction_rows {terms : List Term} (h : OrdinaryFactors terms) (maxCu maxOpen minOpen : Int) (expand : Bool) (c : ℚ)
    {orb : Orbitals O} {I : Interp O R M} (hph : I.Physical orb) {cs : List (List Tensor)} (h1 : cs.Pairwise (fun a b => ¬ a.Perm b))
    (h2 : ∀ ts, (∃ c ∈ cs, c.Perm ts) ↔ Allowed (productOps terms) maxCu maxOpen minOpen ts) :
    IsContraction I orb c (allTensors terms) (properOps terms) maxCu maxOpen minOpen ((algebraMap ℚ R c) •
      ∑ σ ∈ orb.assignments (allLabels terms), I.pval (extendTo σ) (allTensors terms) •
        I.rowsValue (extendTo σ) (cs.flatMap (resultRows (productOps terms) expand))) := by
  have hG := goodOps_productOps h.ops
  have hA : ∀ a ∈ cs, Allowed (productOps terms) maxCu maxOpen minOpen a := fun a ha => (h2 a).1 ⟨a, ha, List.Perm.refl _⟩
  refine ⟨cs, fun ts => relSign (baseOrder (productOps terms)) (arranged (productOps terms) ts), openOp (productOps terms), h1,
    by rw [properOps_eq]; exact h2, ?_, ?_⟩
  · intro a ha
    rw [properOps_eq]
    exact isResult_of_proper hG ((hA a ha).proper hG)
  · exact contraction_rows_value h expand c hph hA

end

end Dsrg
