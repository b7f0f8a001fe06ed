import Verif.Lemmas.WickValue
import Verif.Props.BchValue
import Verif.Props.PhysOp
import Verif.Props.Bch
import Verif.Spec.Transformation

/-!
The levels of the Baker-Campbell-Hausdorff expansion as operators.
-/

namespace Dsrg

/-! ### The number of operators of the terms -/

/-- The number of creation and annihilation operators of a term. -/
def Term.nOpen (t : Term) : Nat := t.sqOp.upper.list.length + t.sqOp.lower.list.length

theorem nOperators_eq (ops : List SqOp) : nOperators ops = (productWord ops).length := by
  unfold nOperators productWord
  rw [List.length_flatMap]
  congr 1
  refine List.map_congr_left fun op _ => ?_
  simp [stringWord, Indices.size]

theorem ContractRun.nOpen {m : Machine} (hcanon : CanonContract m.canon) {o : Options} {terms : List Term} (h : OrdinaryFactors terms) {scale : ℚ}
    {out : List Term} (hr : ContractRun m o terms scale out) (h2 : ¬ (productOps terms).length < 2) :
    ∀ t ∈ out, (t.nOpen : Int) ≤ o.maxOpen ∧ t.nOpen ≤ (terms.map Term.nOpen).sum := by
  intro t ht
  obtain ⟨row, hc, e1, e2⟩ := hr.conserved hcanon h h2 t ht
  refine ⟨by unfold Term.nOpen; rw [e1, e2]; exact hc.window.2, ?_⟩
  have h1 := hc.labels.length_eq
  rw [← nOperators_eq, List.length_append] at h1
  have h3 : (marked row.2.2).length = row.2.2.upper.size + row.2.2.lower.size := by simp [marked, Indices.size]
  have h4 : nOperators (productOps terms) ≤ (terms.map Term.nOpen).sum := by
    unfold nOperators productOps
    have e : terms.map Term.nOpen = (terms.map Term.sqOp).map fun op => op.upper.size + op.lower.size := by
      rw [List.map_map]; rfl
    rw [e]
    exact List.Sublist.sum_le_sum (List.filter_sublist.map _) (by simp)
  unfold Term.nOpen at h4 ⊢
  omega

theorem CommutatorRun.nOpen {m : Machine} (hcanon : CanonContract m.canon) (hord : m.ord.Lawful) {o : Options} {a b : Term}
    (ha : GoodTerm a) (hb : GoodTerm b) (hd : DisjointLabels a b) {scale : ℚ} {out : List Term} (hr : CommutatorRun m o a b scale out) :
    ∀ t ∈ out, (t.nOpen : Int) ≤ o.maxOpen ∧ t.nOpen ≤ a.nOpen + b.nOpen := by
  have hab : ∀ t ∈ [a, b], GoodTerm t := by simp [ha, hb]
  have hba : ∀ t ∈ [b, a], GoodTerm t := by simp [ha, hb]
  have dab : [a, b].Pairwise DisjointLabels := by simpa using hd
  have dba : [b, a].Pairwise DisjointLabels := by
    have : DisjointLabels b a := Disjoint.symm hd
    simpa using this
  by_cases h2 : (productOps [a, b]).length < 2
  · rw [hr.trivial (ordinary_of_good hab dab) h2]; intro t ht; simp at ht
  · have h2' : ¬ (productOps [b, a]).length < 2 := by rw [← (productOps_swap a b).length_eq]; exact h2
    obtain ⟨o₁, o₂, r₁, r₂, hc⟩ := hr.parts h2
    have g₁ := r₁.good hcanon hord hab dab h2
    have g₂ := r₂.good hcanon hord hba dba h2'
    have n₁ := r₁.nOpen hcanon (ordinary_of_good hab dab) h2
    have n₂ := r₂.nOpen hcanon (ordinary_of_good hba dba) h2'
    have hreg := regular_of_good (l := o₁ ++ o₂) fun t ht => (List.mem_append.1 ht).elim (fun h => (g₁ t h).1) fun h => (g₂ t h).1
    rw [combineTerms_eq hreg] at hc
    injection hc with hc
    subst hc
    intro t ht
    obtain ⟨u, hu, e⟩ := mem_combine_same hreg ht
    have e : t.nOpen = u.nOpen := by unfold Term.nOpen; rw [e.2]
    rw [e]
    rcases List.mem_append.1 hu with hu | hu
    · simpa using n₁ u hu
    · simpa [add_comm] using n₂ u hu

theorem CommutatorsRun.nOpen {m : Machine} (hcanon : CanonContract m.canon) (hord : m.ord.Lawful) {o : Options} {scale : ℚ} {N : Nat} :
    ∀ {pairs : List (Term × Term)} {out : List Term},
    (∀ p ∈ pairs, GoodTerm p.1 ∧ GoodTerm p.2 ∧ DisjointLabels p.1 p.2 ∧ p.1.nOpen + p.2.nOpen ≤ N) →
    CommutatorsRun m o scale pairs out → ∀ t ∈ out, (t.nOpen : Int) ≤ o.maxOpen ∧ t.nOpen ≤ N := by
  intro pairs
  induction pairs with
  | nil => intro out _ hr; rw [show out = [] from hr]; intro t ht; simp at ht
  | cons p pairs ih =>
    intro out h hr
    obtain ⟨o₁, o₂, r₁, r₂, rfl⟩ := hr
    obtain ⟨h1, h2, h3, h4⟩ := h p (by simp)
    intro t ht
    rcases List.mem_append.1 ht with ht | ht
    · have := r₁.nOpen hcanon hord h1 h2 h3 t ht
      exact ⟨this.1, this.2.trans h4⟩
    · exact ih (fun q hq => h q (by simp [hq])) r₂ t ht

theorem nOpen_copies {l out : List Term} (hc : (l.mapM fun t => t.fromTerm false false) = .ok out) {P : Nat → Prop} (h : ∀ t ∈ l, P t.nOpen) :
    ∀ t ∈ out, P t.nOpen := by
  intro x hx
  obtain ⟨t, ht, e⟩ := forall₂_mem_right (forall₂_of_mapM hc) hx
  have : x.nOpen = t.nOpen := by unfold Term.nOpen; rw [(fromTerm_copy e).2.1]
  rw [this]; exact h t ht

theorem nOpen_combine {l out : List Term} (hg : ∀ t ∈ l, GoodTerm t) (hc : combineTerms l = .ok out) {P : Nat → Prop} (h : ∀ t ∈ l, P t.nOpen) :
    ∀ t ∈ out, P t.nOpen := by
  have hreg := regular_of_good hg
  rw [combineTerms_eq hreg] at hc
  injection hc with hc
  subst hc
  intro x hx
  obtain ⟨t, ht, e⟩ := mem_combine_same hreg hx
  have : x.nOpen = t.nOpen := by unfold Term.nOpen; rw [e.2]
  rw [this]; exact h t ht

/-! ### Sums over the labels of one tensor -/

section
variable {O R M : Type} [Fintype O] [DecidableEq O] [Inhabited O] [CommRing R] [Algebra ℚ R] [AddCommGroup M] [Module R M]

omit [CommRing R] [Algebra ℚ R] [Module R M] in
theorem sum_labels (orb : Orbitals O) {A B : List Index} (hn : (A ++ B).Nodup) {s s' : Space} (hA : ∀ i ∈ A, i.space = s) (hB : ∀ i ∈ B, i.space = s')
    {k : Nat} (hkA : A.length = k) (hkB : B.length = k) {S : Finset Index} (hS : S = (A ++ B).toFinset) (f : List O → List O → M) :
    ∑ σ ∈ orb.assignments S, f (A.map (extendTo σ)) (B.map (extendTo σ)) =
      ∑ u ∈ Fintype.piFinset fun _ : Fin k => Finset.univ.filter (orb.In s), ∑ l ∈ Fintype.piFinset fun _ : Fin k => Finset.univ.filter (orb.In s'),
        f (List.ofFn u) (List.ofFn l) := by
  classical
  subst hS
  have hAS : ∀ i ∈ A, i ∈ (A ++ B).toFinset := fun i hi => by simp [hi]
  have hBS : ∀ i ∈ B, i ∈ (A ++ B).toFinset := fun i hi => by simp [hi]
  obtain ⟨nA, nB, nAB⟩ := List.nodup_append.1 hn
  have hgA : ∀ j : Fin k, A[j.1]'(hkA ▸ j.2) ∈ A := fun j => List.getElem_mem _
  have hgB : ∀ j : Fin k, B[j.1]'(hkB ▸ j.2) ∈ B := fun j => List.getElem_mem _
  rw [← Finset.sum_product']
  refine Finset.sum_nbij' (fun σ => (fun j => extendTo σ (A[j.1]'(hkA ▸ j.2)), fun j => extendTo σ (B[j.1]'(hkB ▸ j.2))))
    (fun p i => if h : i.1 ∈ A then p.1 ⟨A.idxOf i.1, hkA ▸ List.idxOf_lt_length_iff.2 h⟩ else if h : i.1 ∈ B then
      p.2 ⟨B.idxOf i.1, hkB ▸ List.idxOf_lt_length_iff.2 h⟩ else default) ?_ ?_ ?_ ?_ ?_
  · intro σ hσ
    refine Finset.mem_product.2 ⟨Fintype.mem_piFinset.2 fun j => ?_, Fintype.mem_piFinset.2 fun j => ?_⟩
    · have := orb.extend_in hσ (hAS _ (hgA j))
      rw [hA _ (hgA j)] at this
      simpa using this
    · have := orb.extend_in hσ (hBS _ (hgB j))
      rw [hB _ (hgB j)] at this
      simpa using this
  · rintro ⟨u, l⟩ hp
    obtain ⟨h1, h2⟩ := Finset.mem_product.1 hp
    refine (orb.mem_assignments _ _).2 fun i => ?_
    have hi := List.mem_append.1 (List.mem_toFinset.1 i.2)
    by_cases h : i.1 ∈ A
    · simp only [dif_pos h]
      have := Fintype.mem_piFinset.1 h1 ⟨A.idxOf i.1, hkA ▸ List.idxOf_lt_length_iff.2 h⟩
      rw [hA _ h]
      simpa using this
    · have hb := hi.resolve_left h
      simp only [dif_neg h, dif_pos hb]
      have := Fintype.mem_piFinset.1 h2 ⟨B.idxOf i.1, hkB ▸ List.idxOf_lt_length_iff.2 hb⟩
      rw [hB _ hb]
      simpa using this
  · intro σ _
    funext i
    have hi := List.mem_append.1 (List.mem_toFinset.1 i.2)
    by_cases h : i.1 ∈ A
    · simp only [dif_pos h]
      rw [List.getElem_idxOf (List.idxOf_lt_length_iff.2 h), extendTo_mem σ i.2]
    · have hb := hi.resolve_left h
      simp only [dif_neg h, dif_pos hb]
      rw [List.getElem_idxOf (List.idxOf_lt_length_iff.2 hb), extendTo_mem σ i.2]
  · rintro ⟨u, l⟩ _
    refine Prod.ext (funext fun j => ?_) (funext fun j => ?_)
    · simp only
      rw [extendTo_mem _ (hAS _ (hgA j)), dif_pos (hgA j)]
      congr 1
      exact Fin.ext (nA.idxOf_getElem _ _)
    · simp only
      rw [extendTo_mem _ (hBS _ (hgB j)), dif_neg (fun h => nAB _ h _ (hgB j) rfl), dif_pos (hgB j)]
      congr 1
      exact Fin.ext (nB.idxOf_getElem _ _)
  · intro σ _
    congr 1
    · refine List.ext_getElem (by simp [hkA]) fun j h1 h2 => ?_
      simp
    · refine List.ext_getElem (by simp [hkB]) fun j h1 h2 => ?_
      simp

omit [DecidableEq O] [Inhabited O] in
theorem holes_eq (orb : Orbitals O) (singleRef : Bool) : Finset.univ.filter (orb.In (holeSpace singleRef)) = orb.holes singleRef := by
  ext o
  simp only [Orbitals.holes, Finset.mem_filter, Finset.mem_univ, true_and, Orbitals.In]
  cases singleRef <;> cases orb.elem o <;> cases orb.spin o <;> decide

omit [DecidableEq O] [Inhabited O] in
theorem particles_eq (orb : Orbitals O) (singleRef : Bool) : Finset.univ.filter (orb.In (particleSpace singleRef)) = orb.particles singleRef := by
  ext o
  simp only [Orbitals.particles, Finset.mem_filter, Finset.mem_univ, true_and, Orbitals.In]
  cases singleRef <;> cases orb.elem o <;> cases orb.spin o <;> decide

/-- An amplitude as an operator. -/
theorem cluster_value {k start : Nat} {excitation : Bool} {scale : ℚ} {singleRef : Bool} {t : Term}
    (h : clusterOperator k start excitation ['T'] scale (holeSpace singleRef) (particleSpace singleRef) .spinOrbital = .ok t)
    (orb : Orbitals O) (I : Interp O R M) : I.value orb t.coeff t.tensors t.sqOp =
      algebraMap ℚ R scale • if excitation then I.excitation orb singleRef k else I.deexcitation orb singleRef k := by
  have hb1 : (holeSpace singleRef).beta = false := by cases singleRef <;> rfl
  have hb2 : (particleSpace singleRef).beta = false := by cases singleRef <;> rfl
  have hne : holeSpace singleRef ≠ particleSpace singleRef := by cases singleRef <;> decide
  obtain ⟨t', x, h1, h2, h3, h4, h5, h6, h7, h8, h9⟩ := C38_cluster k start excitation ['T'] scale (holeSpace singleRef) (particleSpace singleRef) .spinOrbital
    (hb1.trans hb2.symm) fun _ => hb1
  rw [h] at h1
  injection h1 with h1
  subst h1
  have hn : (consecutive (holeSpace singleRef) start k ++ consecutive (particleSpace singleRef) start k).Nodup := by
    rw [List.nodup_append]
    refine ⟨nodup_consecutive _ _ _, nodup_consecutive _ _ _, ?_⟩
    rintro i hi j hj rfl
    rw [mem_consecutive] at hi hj
    exact hne (hi.1.symm.trans hj.1)
  have hS : labelsOf t.tensors t.sqOp = (consecutive (holeSpace singleRef) start k ++ consecutive (particleSpace singleRef) start k).toFinset := by
    ext i
    unfold labelsOf
    rw [h2, h7, h8, h5, h6]
    cases excitation <;> simp [h5, h6] <;> tauto
  have key := fun f => sum_labels (M := M) orb hn (s := holeSpace singleRef) (s' := particleSpace singleRef) (fun i hi => (mem_consecutive.1 hi).1)
    (fun i hi => (mem_consecutive.1 hi).1) (length_consecutive _ _ _) (length_consecutive _ _ _) hS f
  rw [holes_eq, particles_eq] at key
  have hc : t.coeff = scale * (1 / (k.factorial : ℚ) ^ 2) := by rw [h9]; ring
  unfold Interp.value
  rw [hc, map_mul, mul_smul]
  congr 1
  cases excitation
  · rw [if_neg (by simp), Interp.deexcitation, ← key fun u l => I.tensor .cluster ['T'] u l • I.op u l]
    congr 1
    refine Finset.sum_congr rfl fun σ _ => ?_
    simp [Interp.pval, Interp.tval, Interp.opval, h2, h3, h4, h5, h6, h7, h8]
  · rw [if_pos rfl, Interp.excitation, ← key fun u l => I.tensor .cluster ['T'] u l • I.op l u]
    congr 1
    refine Finset.sum_congr rfl fun σ _ => ?_
    simp [Interp.pval, Interp.tval, Interp.opval, h2, h3, h4, h5, h6, h7, h8]

theorem mapM_cluster_value {levels : List Nat} {start : Nat} {excitation : Bool} {scale : ℚ} {singleRef : Bool} {l : List Term}
    (h : (levels.mapM fun k => clusterOperator k start excitation ['T'] scale (holeSpace singleRef) (particleSpace singleRef) .spinOrbital) = .ok l)
    (orb : Orbitals O) (I : Interp O R M) : I.listValue orb l = algebraMap ℚ R scale •
      (levels.map fun k => if excitation then I.excitation orb singleRef k else I.deexcitation orb singleRef k).sum := by
  replace h := forall₂_of_mapM h
  induction h with
  | nil => simp [Interp.listValue]
  | cons h _ ih =>
    have : ∀ (t : Term) (l : List Term), I.listValue orb (t :: l) = I.value orb t.coeff t.tensors t.sqOp + I.listValue orb l := fun t l => by
      simp [Interp.listValue]
    rw [this, ih, List.map_cons, List.sum_cons, smul_add, cluster_value h]

/-- The amplitudes as operators. -/
theorem clusterOperators_value {levels : List Nat} {start : Nat} {unitary singleRef : Bool} {amps : List Term}
    (h : clusterOperators levels start unitary singleRef = .ok amps) (orb : Orbitals O) (I : Interp O R M) :
    I.listValue orb amps = I.generator orb singleRef unitary levels := by
  unfold clusterOperators at h
  simp only [bind, Except.bind] at h
  split at h
  · cases h
  · rename_i a ha
    have e1 := mapM_cluster_value ha orb I
    simp only [if_true, map_one, one_smul] at e1
    split at h
    · rename_i hu
      split at h
      · cases h
      · rename_i b hb
        have e2 := mapM_cluster_value hb orb I
        simp only [Bool.false_eq_true, if_false, map_neg, map_one, neg_smul, one_smul] at e2
        injection h with h
        subst h
        rw [listValue_append, e1, e2, Interp.generator, if_pos hu, sub_eq_add_neg]
    · rename_i hu
      injection h with h
      subst h
      rw [e1, Interp.generator, if_neg hu, sub_zero]

/-! ### The Hamiltonian -/

/-- The blocks of a part of the Hamiltonian as an operator. -/
theorem expandedHamiltonian_operator {ord : SetOrder} (hord : ord.Lawful) {k : Nat} (hk : k = 1 ∨ k = 2) {out : List Term}
    (h : expandedHamiltonian ord k = .ok out) (orb : Orbitals O) (I : Interp O R M) :
    I.listValue orb out = I.hamiltonianPart (Finset.univ.filter fun o => orb.spin o = false ∧ orb.elem o ≠ .active) k := by
  classical
  obtain ⟨t, x, h1, h2, h3, h4, h5, h6, h7, h8, h9⟩ := C38_hamiltonian k 0 .spinOrbital
  unfold expandedHamiltonian at h
  rw [h1] at h
  simp only [bind, Except.bind] at h
  split at h
  · cases h
  rename_i rows hrows
  have hg := expand_good hord h1 hrows
  have hreg := regular_of_good fun t ht => (hg t ht).1
  have hmul : ∀ r ∈ rows, Multiple (1 / (k.factorial : ℚ) ^ 2) r.coeff := by
    intro r hr
    refine ⟨1, by rw [(hg r hr).2.2.1]; simp, Or.inr ?_⟩
    rcases hk with rfl | rfl <;> norm_num [Nat.factorial]
  show (out.map fun t => I.value orb t.coeff t.tensors t.sqOp).sum = _
  rw [C49_value .spinOrbital rows hreg (fun t _ => (Multiple.totalCoeff hmul t).not_negligible) out h orb I]
  obtain ⟨ts, op, c, hm⟩ := hamiltonian_made h1
  obtain ⟨g, -⟩ := hamiltonian_good h1
  have hop : t.sqOp = op := by obtain ⟨-, -, -, rfl⟩ := Term.make_ok.1 hm; rfl
  rw [C44_expand_single_ref_partial ord hord ts op c t hm (by rw [← hop]; exact g.tidy.op) 0 rows hrows orb I, ← hop]
  have hn : (consecutive ⟨.g, false⟩ (0 + k) k ++ consecutive ⟨.g, false⟩ 0 k).Nodup := by
    rw [List.nodup_append]
    refine ⟨nodup_consecutive _ _ _, nodup_consecutive _ _ _, ?_⟩
    rintro i hi j hj rfl
    rw [mem_consecutive] at hi hj
    omega
  have hS : labelsOf t.tensors t.sqOp = (consecutive ⟨.g, false⟩ (0 + k) k ++ consecutive ⟨.g, false⟩ 0 k).toFinset := by
    ext i
    unfold labelsOf
    rw [h2, h7, h8, h5, h6]
    simp [h5, h6]
    tauto
  have key := sum_labels (M := M) orb hn (s := ⟨.g, false⟩) (s' := ⟨.g, false⟩) (fun i hi => (mem_consecutive.1 hi).1)
    (fun i hi => (mem_consecutive.1 hi).1) (length_consecutive _ _ _) (length_consecutive _ _ _) hS
    fun u l => if ∀ o ∈ l ++ u, orb.elem o ≠ .active then I.tensor .hamiltonian ['H'] u l • I.op l u else 0
  unfold Interp.hamiltonianPart
  rw [h9]
  congr 1
  rw [Finset.sum_filter]
  refine Eq.trans (Finset.sum_congr rfl fun σ _ => ?_) (key.trans ?_)
  · refine if_congr ?_ ?_ rfl
    · rw [h7, h8, h5, h6, ← List.map_append]
      simp only [List.mem_map, forall_exists_index, and_imp, forall_apply_eq_imp_iff₂]
    · simp [Interp.pval, Interp.tval, Interp.opval, h2, h3, h4, h5, h6, h7, h8]
  · have hpi : Fintype.piFinset (fun _ : Fin k => Finset.univ.filter fun o => orb.spin o = false ∧ orb.elem o ≠ .active) =
        (Fintype.piFinset fun _ : Fin k => Finset.univ.filter (orb.In ⟨.g, false⟩)).filter fun u => ∀ j, orb.elem (u j) ≠ .active := by
      ext u
      simp only [Fintype.mem_piFinset, Finset.mem_filter, Finset.mem_univ, true_and, ← forall_and]
      refine forall_congr' fun j => ?_
      unfold Orbitals.In
      cases orb.elem (u j) <;> cases orb.spin (u j) <;> decide
    rw [hpi, Finset.sum_filter]
    refine Finset.sum_congr rfl fun u _ => ?_
    split
    · rename_i hu
      rw [Finset.sum_filter]
      refine Finset.sum_congr rfl fun l _ => if_congr ?_ rfl rfl
      simp only [List.mem_append, List.mem_ofFn]
      constructor
      · exact fun h j => h _ (Or.inl ⟨j, rfl⟩)
      · rintro h o (⟨j, rfl⟩ | ⟨j, rfl⟩)
        · exact h j
        · exact hu j
    · rename_i hu
      refine Finset.sum_eq_zero fun l _ => if_neg fun h => hu fun j => h _ ?_
      simp

/-- A part of the Hamiltonian as an operator. -/
theorem hamiltonian_operator {k start : Nat} {t : Term} (h : hamiltonianOperator k start .spinOrbital = .ok t) (orb : Orbitals O) (I : Interp O R M) :
    I.value orb t.coeff t.tensors t.sqOp = I.hamiltonianPart (Finset.univ.filter fun o => orb.spin o = false) k := by
  obtain ⟨t', x, h1, h2, h3, h4, h5, h6, h7, h8, h9⟩ := C38_hamiltonian k start .spinOrbital
  rw [h] at h1
  injection h1 with h1
  subst h1
  have hn : (consecutive ⟨.g, false⟩ (start + k) k ++ consecutive ⟨.g, false⟩ start k).Nodup := by
    rw [List.nodup_append]
    refine ⟨nodup_consecutive _ _ _, nodup_consecutive _ _ _, ?_⟩
    rintro i hi j hj rfl
    rw [mem_consecutive] at hi hj
    omega
  have hS : labelsOf t.tensors t.sqOp = (consecutive ⟨.g, false⟩ (start + k) k ++ consecutive ⟨.g, false⟩ start k).toFinset := by
    ext i
    unfold labelsOf
    rw [h2, h7, h8, h5, h6]
    simp [h5, h6]
    tauto
  have key := sum_labels (M := M) orb hn (s := ⟨.g, false⟩) (s' := ⟨.g, false⟩) (fun i hi => (mem_consecutive.1 hi).1)
    (fun i hi => (mem_consecutive.1 hi).1) (length_consecutive _ _ _) (length_consecutive _ _ _) hS
    fun u l => I.tensor .hamiltonian ['H'] u l • I.op l u
  have hg : Finset.univ.filter (orb.In ⟨.g, false⟩) = Finset.univ.filter fun o => orb.spin o = false := by
    ext o
    simp only [Finset.mem_filter, Finset.mem_univ, true_and, Orbitals.In]
    cases orb.elem o <;> cases orb.spin o <;> decide
  rw [hg] at key
  unfold Interp.hamiltonianPart Interp.value
  rw [h9, ← key]
  congr 1
  refine Finset.sum_congr rfl fun σ _ => ?_
  simp [Interp.pval, Interp.tval, Interp.opval, h2, h3, h4, h5, h6, h7, h8]

/-- Level 0 as an operator. -/
theorem bchStart_operator {ord : SetOrder} (hord : ord.Lawful) {start : List Term} (h : bchStart ord = .ok start) (orb : Orbitals O) (I : Interp O R M) :
    I.listValue orb start = I.hamiltonianPart (Finset.univ.filter fun o => orb.spin o = false ∧ orb.elem o ≠ .active) 1 +
      I.hamiltonianPart (Finset.univ.filter fun o => orb.spin o = false ∧ orb.elem o ≠ .active) 2 := by
  unfold bchStart at h
  simp only [bind, Except.bind] at h
  split at h
  · cases h
  · rename_i a ha
    split at h
    · cases h
    · rename_i b hb
      injection h with h
      subst h
      rw [listValue_append, expandedHamiltonian_operator hord (Or.inl rfl) ha, expandedHamiltonian_operator hord (Or.inr rfl) hb]

omit [Fintype O] [DecidableEq O] [Inhabited O] [CommRing R] [Algebra ℚ R] [AddCommGroup M] [Module R M] in
theorem nOpen_le_card {t : Term} (h : GoodTerm t) : t.nOpen ≤ (labelsOf t.tensors t.sqOp).card := by
  have : (t.sqOp.upper.list ++ t.sqOp.lower.list).toFinset ⊆ labelsOf t.tensors t.sqOp := fun i hi => labels_of_op (List.mem_toFinset.1 hi)
  have := Finset.card_le_card this
  rw [List.toFinset_card_of_nodup h.tidy.op, List.length_append] at this
  exact this

/-! ### The levels -/

/-- The number of operators and the labels of the terms of each level. -/
theorem BchLevels.shape {m : Machine} (hcanon : CanonContract m.canon) (hord : m.ord.Lawful) {o : Options} {levels : List Nat}
    {unitary singleRef : Bool} {K : Nat} (hK : ∀ k ∈ levels, k ≤ K) :
    ∀ {limits : List (Int × Int × Int)} {i : Nat} {pool before : List Term} {calls : List (List (Term × Term))} {outs : List (List Term)},
      List.Forall₂ (fun b c : Term => c.tensors.Perm b.tensors ∧ c.sqOp = b.sqOp ∧ c.coeff = b.coeff) before pool →
      GoodList (i * (K * 2) + 4) pool →
      BchLevels m o levels unitary singleRef (K * 2) i pool limits calls outs →
      ∀ (j : Nat) (maxCu minOpen maxOpen : Int), limits[j]? = some (maxCu, minOpen, maxOpen) →
        ∃ before' after amps, (before :: outs)[j]? = some before' ∧ (before :: outs)[j + 1]? = some after ∧
          clusterOperators levels ((i + j) * (K * 2) + 4) unitary singleRef = .ok amps ∧
          (∀ l ∈ before', ∀ r ∈ amps, GoodTerm l ∧ GoodTerm r ∧ DisjointLabels l r ∧ r.nOpen ≤ 2 * K) ∧
          ∀ N, (∀ l ∈ before', l.nOpen ≤ N) → ∀ t ∈ after, (t.nOpen : Int) ≤ maxOpen ∧ t.nOpen ≤ N + 2 * K := by
  intro limits
  induction limits with
  | nil => intro i pool before calls outs _ _ _ j _ _ _ h; simp at h
  | cons x limits ih =>
    intro i pool before calls outs hcopy hp h j maxCu minOpen maxOpen hj
    obtain ⟨mc, mn, mx⟩ := x
    obtain ⟨amps, all, copies, out, pool', calls', outs', h1, h2, h3, h4, h5, h6, rfl, rfl⟩ := h
    have hpairs := level_pairs hK hp h1
    have g1 := CommutatorsRun.good hcanon hord hpairs h2
    have g1c := g1.copies h3
    have g2 := g1c.combine h4
    have g3 := g2.copies h5
    have e : i * (K * 2) + 4 + K * 2 = (i + 1) * (K * 2) + 4 := by ring
    rw [e] at g3
    have hcopy' : List.Forall₂ (fun b c : Term => c.tensors.Perm b.tensors ∧ c.sqOp = b.sqOp ∧ c.coeff = b.coeff) out pool' :=
      (forall₂_of_mapM h5).imp fun a b h => fromTerm_copy h
    cases j with
    | zero =>
      simp only [List.getElem?_cons_zero, Option.some.injEq, Prod.mk.injEq] at hj
      obtain ⟨rfl, rfl, rfl⟩ := hj
      have hamp : ∀ r ∈ amps, r.nOpen ≤ 2 * K := by
        intro r hr
        obtain ⟨k, hk, -, -, -, e1, e2, -⟩ := clusterOperators_good h1 r hr
        have := hK k hk
        unfold Term.nOpen
        omega
      refine ⟨before, out, amps, rfl, rfl, h1, ?_, ?_⟩
      · intro l hl r hr
        obtain ⟨c, hc, e1, e2, -⟩ : ∃ c ∈ pool, c.tensors.Perm l.tensors ∧ c.sqOp = l.sqOp ∧ c.coeff = l.coeff := forall₂_mem_left hcopy hl
        obtain ⟨k1, k2, k3, -⟩ := hpairs (c, r) (List.mem_flatMap.2 ⟨c, hc, List.mem_map.2 ⟨r, hr, rfl⟩⟩)
        refine ⟨k1.congr e1.symm e2.symm, k2, ?_, hamp r hr⟩
        have e : labelsOf l.tensors l.sqOp = labelsOf c.tensors c.sqOp := by rw [← e2, labelsOf_perm e1.symm]
        unfold DisjointLabels
        rw [e]
        exact k3
      · intro N hN
        have hN' : ∀ p ∈ pool.flatMap fun l => amps.map fun r => (l, r), GoodTerm p.1 ∧ GoodTerm p.2 ∧ DisjointLabels p.1 p.2 ∧
            p.1.nOpen + p.2.nOpen ≤ N + 2 * K := by
          intro p hpm
          obtain ⟨k1, k2, k3, -⟩ := hpairs p hpm
          refine ⟨k1, k2, k3, ?_⟩
          obtain ⟨l, hl, hpm⟩ := List.mem_flatMap.1 hpm
          obtain ⟨r, hr, rfl⟩ := List.mem_map.1 hpm
          obtain ⟨u, hu, -, e, -⟩ := forall₂_mem_right hcopy hl
          have e : l.nOpen = u.nOpen := by unfold Term.nOpen; rw [e]
          have := hN u hu
          have := hamp r hr
          show l.nOpen + r.nOpen ≤ _
          omega
        have hn := CommutatorsRun.nOpen hcanon hord (o := { o with maxCu := mc, maxOpen := mx, minOpen := mn }) hN' h2
        intro t ht
        exact nOpen_combine (P := fun n => (n : Int) ≤ mx ∧ n ≤ N + 2 * K) (fun t ht => (g1c t ht).1) h4
          (nOpen_copies (P := fun n => (n : Int) ≤ mx ∧ n ≤ N + 2 * K) h3 hn) t ht
    | succ j =>
      rw [List.getElem?_cons_succ] at hj
      obtain ⟨b, a, am, e1, e2, e3, e4, e5⟩ := ih hcopy' g3 h6 j maxCu minOpen maxOpen hj
      refine ⟨b, a, am, by rw [List.getElem?_cons_succ]; exact e1, by rw [List.getElem?_cons_succ]; exact e2, ?_, e4, e5⟩
      rw [show i + (j + 1) = i + 1 + j by omega]; exact e3

end

section
variable {A : Type} [Ring A]

theorem sum_commutators {α : Type} (v : α → A) (r : α) (c : List α) :
    (c.map fun x => v r * v x - v x * v r).sum = v r * (c.map v).sum - (c.map v).sum * v r := by
  induction c with
  | nil => simp
  | cons x c ih => simp only [List.map_cons, List.sum_cons, ih]; noncomm_ring

theorem sum_pairs {α : Type} (v : α → A) (amps : List α) : ∀ before : List α,
    ((before.flatMap fun l => amps.map fun r => (l, r)).map fun p : α × α => v p.1 * v p.2 - v p.2 * v p.1).sum =
      (before.map v).sum * (amps.map v).sum - (amps.map v).sum * (before.map v).sum := by
  intro before
  induction before with
  | nil => simp
  | cons l before ih =>
    rw [List.flatMap_cons, List.map_append, List.sum_append, ih, List.map_map]
    have := sum_commutators v l amps
    simp only [Function.comp_def, List.map_cons, List.sum_cons] at this ⊢
    rw [this]
    noncomm_ring

end

section
variable {O R A : Type} [Fintype O] [DecidableEq O] [Inhabited O] [CommRing R] [Algebra ℚ R] [Ring A] [Algebra R A]

theorem commutator_values_sum {I : Interp O R A} {orb : Orbitals O} {scale : ℚ} {maxCu maxOpen minOpen : Int} {before amps : List Term} {F : List A} {N : Nat}
    (hg : ∀ l ∈ before, ∀ r ∈ amps, GoodTerm l ∧ GoodTerm r ∧ DisjointLabels l r ∧ l.nOpen + r.nOpen ≤ N)
    {field : Bool × O → A} (hf : Fermions field) (hno : I.NormalOrdered field) (hI : I.Antisymmetric)
    (hph : I.Physical orb) (hac : I.ActiveCumulants orb) (hcu : I.CumulantsUpTo maxCu) (hmin : minOpen ≤ 0) (hmax : (N : Int) ≤ maxOpen + 2)
    (hF : List.Forall₂ (fun (p : Term × Term) f => IsCommutatorValue I orb scale maxCu maxOpen minOpen p.1 p.2 f)
      (before.flatMap fun l => amps.map fun r => (l, r)) F) :
    F.sum = algebraMap ℚ R scale • (I.listValue orb before * I.listValue orb amps - I.listValue orb amps * I.listValue orb before) := by
  have key : ∀ {pairs : List (Term × Term)} {F : List A}, (∀ p ∈ pairs, p.1 ∈ before ∧ p.2 ∈ amps) →
      List.Forall₂ (fun (p : Term × Term) f => IsCommutatorValue I orb scale maxCu maxOpen minOpen p.1 p.2 f) pairs F →
      F.sum = algebraMap ℚ R scale • (pairs.map fun p => I.value orb p.1.coeff p.1.tensors p.1.sqOp * I.value orb p.2.coeff p.2.tensors p.2.sqOp -
        I.value orb p.2.coeff p.2.tensors p.2.sqOp * I.value orb p.1.coeff p.1.tensors p.1.sqOp).sum := by
    intro pairs F hp hF
    induction hF with
    | nil => simp
    | @cons p f pairs F h _ ih =>
      rw [List.sum_cons, List.map_cons, List.sum_cons, smul_add, ih fun q hq => hp q (by simp [hq])]
      congr 1
      obtain ⟨h1, h2⟩ := hp p (by simp)
      obtain ⟨g1, g2, hd, hN⟩ := hg _ h1 _ h2
      have ho := ordinary_of_good (terms := [p.1, p.2]) (by simp [g1, g2]) (by simpa using hd)
      refine IsCommutatorValue.eq_commutator ho.ops (Or.inl ?_) hd hf hno hI hph hac hcu hmin ?_ h
      · have hb := g1.bal
        simp only [stringWord, List.length_append, List.length_map, List.length_reverse, hb]
        exact ⟨_, rfl⟩
      · have e : nOperators [p.1.sqOp, p.2.sqOp] = p.1.nOpen + p.2.nOpen := by simp [nOperators, Term.nOpen, Indices.size]
        rw [e]
        omega
  rw [key ?_ hF, sum_pairs (fun t : Term => I.value orb t.coeff t.tensors t.sqOp)]
  · rfl
  · intro p hp
    obtain ⟨l, hl, hp⟩ := List.mem_flatMap.1 hp
    obtain ⟨r, hr, rfl⟩ := List.mem_map.1 hp
    exact ⟨hl, hr⟩

/-! ### Products of symbols -/

/-- The operator that a symbol stands for. -/
def Interp.symbolOperator (I : Interp O R A) (orb : Orbitals O) (singleRef : Bool) : OpName → A
  | .H k => I.hamiltonianPart (Finset.univ.filter fun o => orb.spin o = false) k
  | .T k => I.excitation orb singleRef k
  | .X k => I.deexcitation orb singleRef k

theorem isFactor_operator {singleRef : Bool} {x : OpName} {t : Term} (h : IsFactor singleRef x t) (orb : Orbitals O) (I : Interp O R A) :
    GoodTerm t ∧ t.nOpen = 2 * x.bodies ∧ t.sqOp.upper.list.length = x.bodies ∧ I.value orb t.coeff t.tensors t.sqOp = I.symbolOperator orb singleRef x := by
  cases x with
  | H k =>
    obtain ⟨g1, -, -, g2, g3, -⟩ := hamiltonian_good h
    exact ⟨g1, by unfold Term.nOpen; rw [g2, g3, two_mul]; rfl, g2, hamiltonian_operator h orb I⟩
  | T k =>
    obtain ⟨start, h⟩ := h
    obtain ⟨g1, -, -, g2, g3, -⟩ := cluster_good (singleRef := singleRef) h
    refine ⟨g1, by unfold Term.nOpen; rw [g2, g3, two_mul]; rfl, g2, ?_⟩
    have := cluster_value (singleRef := singleRef) h orb I
    simpa [Interp.symbolOperator] using this
  | X k =>
    obtain ⟨start, h⟩ := h
    obtain ⟨g1, -, -, g2, g3, -⟩ := cluster_good (singleRef := singleRef) h
    refine ⟨g1, by unfold Term.nOpen; rw [g2, g3, two_mul]; rfl, g2, ?_⟩
    have := cluster_value (singleRef := singleRef) h orb I
    simpa [Interp.symbolOperator] using this

/-- All contractions of a product of symbols, when nothing is cut off: the product of the operators. -/
theorem IsWordValue.eq_prod {I : Interp O R A} {orb : Orbitals O} {singleRef : Bool} {maxCu maxOpen minOpen : Int} {w : List OpName} {V : A}
    (hb : ∀ x ∈ w, 1 ≤ x.bodies) {field : Bool × O → A} (hf : Fermions field) (hno : I.NormalOrdered field) (hI : I.Antisymmetric)
    (hph : I.Physical orb) (hac : I.ActiveCumulants orb) (hcu : I.CumulantsUpTo maxCu) (hmin : minOpen ≤ 0)
    (hmax : ((2 * (w.map OpName.bodies).sum : Nat) : Int) ≤ maxOpen) (h : IsWordValue I orb singleRef maxCu maxOpen minOpen w V) :
    V = (w.map (I.symbolOperator orb singleRef)).prod := by
  obtain ⟨terms, h1, h2, h3⟩ := h
  have hg : ∀ t ∈ terms, GoodTerm t := by
    intro t ht
    obtain ⟨x, -, h⟩ := forall₂_mem_right h1 ht
    exact (isFactor_operator h orb I).1
  have hp : properOps terms = terms.map Term.sqOp := by
    unfold properOps
    rw [List.filter_eq_self]
    intro op hop
    obtain ⟨t, ht, rfl⟩ := List.mem_map.1 hop
    obtain ⟨x, hx, h⟩ := forall₂_mem_right h1 ht
    have e := (isFactor_operator h orb I).2.2.1
    have := hb x hx
    simp only [decide_eq_true_eq]
    exact Or.inl (List.ne_nil_of_length_pos (by omega))
  have hsum : nOperators (terms.map Term.sqOp) = 2 * (w.map OpName.bodies).sum := by
    clear h2 h3 hg hp hb hmax
    unfold nOperators
    induction h1 with
    | nil => rfl
    | cons h _ ih =>
      rw [List.map_cons, List.map_cons, List.sum_cons, ih, List.map_cons, List.sum_cons]
      have := (isFactor_operator h orb I).2.1
      unfold Term.nOpen at this
      unfold Indices.size
      omega
  have hv : terms.map (fun t => I.value orb t.coeff t.tensors t.sqOp) = w.map (I.symbolOperator orb singleRef) := by
    clear h2 h3 hg hp hb hmax hsum
    induction h1 with
    | nil => rfl
    | cons h _ ih => rw [List.map_cons, ih, List.map_cons, (isFactor_operator h orb I).2.2.2]
  have := IsContraction.eq_prod (scale := 1) (terms := terms) (maxOpen := maxOpen) (V := V) (by rw [hp]; exact (ordinary_of_good hg h2).ops) h2 hf hno hI hph hac hcu hmin
    (by rw [hp, hsum]; exact hmax) (by rw [one_mul, hp]; exact h3)
  rw [this, map_one, one_smul, hv]

omit [Fintype O] [DecidableEq O] [Inhabited O] [CommRing R] [Algebra ℚ R] [Algebra R A] in
/-- The products of a nested commutator add up to it. -/
theorem nestedWords_sum {α : Type} (hs : List α) (amps : List (ℤ × α)) (v : α → A) (n : Nat) :
    ((nestedWords hs amps n).map fun p => p.1 • (p.2.map v).prod).sum =
      nestedCommutator (hs.map v).sum (amps.map fun a => a.1 • v a.2).sum n := by
  induction n with
  | zero => simp [nestedWords, nestedCommutator, Function.comp_def]
  | succ n ih =>
    rw [nestedCommutator, ← ih, nestedWords]
    generalize nestedWords hs amps n = ws
    induction ws with
    | nil => simp
    | cons p ws ihw =>
      rw [List.flatMap_cons, List.map_append, List.sum_append, ihw, List.map_cons, List.sum_cons]
      have : ∀ amps : List (ℤ × α), ((amps.flatMap fun a => [(p.1 * a.1, p.2 ++ [a.2]), (-(p.1 * a.1), a.2 :: p.2)]).map fun p => p.1 • (p.2.map v).prod).sum =
          p.1 • (p.2.map v).prod * (amps.map fun a => a.1 • v a.2).sum - (amps.map fun a => a.1 • v a.2).sum * p.1 • (p.2.map v).prod := by
        intro amps
        induction amps with
        | nil => simp
        | cons a amps iha =>
          rw [List.flatMap_cons, List.map_append, List.sum_append, iha, List.map_cons, List.sum_cons]
          simp only [List.map_cons, List.map_nil, List.sum_cons, List.sum_nil, List.map_append, List.prod_append, List.prod_cons, List.prod_nil, mul_one]
          have e1 : (p.1 * a.1) • ((p.2.map v).prod * v a.2) = p.1 • (p.2.map v).prod * a.1 • v a.2 := by
            rw [smul_mul_smul_comm]
          have e2 : (-(p.1 * a.1)) • (v a.2 * (p.2.map v).prod) = -(a.1 • v a.2 * p.1 • (p.2.map v).prod) := by
            rw [smul_mul_smul_comm, neg_smul, mul_comm p.1]
          rw [e1, e2]
          simp only [mul_add, add_mul]
          abel
      rw [this]
      simp only [mul_add, add_mul]
      abel

end

end Dsrg
