import Verif.Lemmas.Gradient
import Verif.Lemmas.PlainCanon
import Verif.Spec.Toy

/-!
Property theorems about operations that restrict or differentiate a term (`make_excitation`, `make_one_body_diagonal`, `gradient_t`).
-/

namespace Dsrg

section
variable {O R M : Type} [Fintype O] [DecidableEq O] [Inhabited O] [CommRing R] [Algebra ℚ R] [AddCommGroup M] [Module R M]

/-! ### C62 make_excitation keeps exactly the excitation part -/

open Classical in
/-- When `make_excitation` returns, the result is the part of the term in which every creation label is a particle and every annihilation
label is a hole.  Partial: alpha (or spin-orbital) labels only, not all of them active; as many creation as annihilation labels; the labels that
densities share with the operator are core, active or virtual. -/
theorem C62_excitation_part_partial (canon : List Nat → List (Nat × Nat) → List SlotGroup → Option (List Nat)) (hcanon : CanonContract canon)
    (ord : SetOrder) (hord : ord.Lawful) (ts : List Tensor) (op : SqOp) (c : ℚ) (t r : Term) (ht : Term.make ts op c = .ok t) (singleRef : Bool)
    (hr : t.makeExcitation canon ord singleRef = .ok r)
    (hspin : ∀ i ∈ op.upper.list ++ op.lower.list, i.space.beta = false)
    (hact : op.upper.list ++ op.lower.list = [] ∨ ∃ i ∈ op.upper.list ++ op.lower.list, i.space.kind ≠ .a)
    (hsep : Separated true ts op)
    (hcum : ∀ x ∈ ts, x.cls = .cumulant → ∀ i ∈ x.upper.list ++ x.lower.list, i ∈ op.upper.list ++ op.lower.list →
      i.space.kind = .c ∨ i.space.kind = .a ∨ i.space.kind = .v)
    (hc : c = 0 ∨ 1 / 10 ^ 15 ≤ |c|) (hbal : op.upper.list.length = op.lower.list.length)
    (hkind : ∀ x ∈ ts, ∀ y ∈ ts, x.name = y.name → x.cls = y.cls)
    (orb : Orbitals O) (I : Interp O R M) (hI : I.SlotSymmetric op.upper.ty.isAntisym true)
    (hph : I.Physical orb) (hac : I.ActiveCumulants orb) (hna : I.NoActiveAmplitudes orb) :
    I.value orb r.coeff r.tensors r.sqOp = (algebraMap ℚ R c) •
      ∑ σ ∈ (orb.assignments (labelsOf ts op)).filter fun σ => ExcitesUnder orb singleRef op (extendTo σ),
        I.pval (extendTo σ) ts • I.opval (extendTo σ) op :=
  makeExcitation_value hcanon hord ht hr hspin hact hsep hcum hc hbal hkind orb I hI hph hac hna

end

/-- The zero term is returned, at once, when a creation label is core, an annihilation label is virtual, or all labels are active. -/
theorem C62_zero (canon : List Nat → List (Nat × Nat) → List SlotGroup → Option (List Nat)) (ord : SetOrder) (t : Term) (singleRef : Bool)
    (h : (∃ i ∈ t.sqOp.upper.list, i.space.kind = .c) ∨ (∃ i ∈ t.sqOp.lower.list, i.space.kind = .v) ∨
      (t.sqOp.upper.list ++ t.sqOp.lower.list ≠ [] ∧ ∀ i ∈ t.sqOp.upper.list ++ t.sqOp.lower.list, i.space.kind = .a)) :
    ∃ r, t.makeExcitation canon ord singleRef = .ok r ∧ r.coeff = 0 ∧ r.tensors = [] ∧ r.sqOp.upper.list = [] ∧ r.sqOp.lower.list = [] := by
  have hp : t.sqOp.isPossibleExcitation = false := by
    unfold IndicesPair.isPossibleExcitation
    split_ifs with k1 k2 k3
    · rfl
    · rfl
    · rfl
    · exfalso
      rcases h with ⟨i, hi, hk⟩ | ⟨i, hi, hk⟩ | ⟨hne, hk⟩
      · exact k1 (List.any_eq_true.2 ⟨i, hi, by simp [hk]⟩)
      · exact k2 (List.any_eq_true.2 ⟨i, hi, by simp [hk]⟩)
      · apply k3
        rw [decide_eq_true_eq]
        ext k
        rw [List.mem_toFinset, Finset.mem_singleton, List.mem_map]
        constructor
        · rintro ⟨i, hi, rfl⟩; exact hk i hi
        · rintro rfl
          obtain ⟨i, hi⟩ := List.exists_mem_of_ne_nil _ hne
          exact ⟨i, hi, hk i hi⟩
  unfold Term.makeExcitation
  rw [if_pos hp]
  have : t.void = .ok _ := Term.make_ok.2 ⟨by simp, by simp [labelList, IndicesPair.void, IndicesPair.indices], by
    intro i hi
    simp [mem_diagonalOf, IndicesPair.void] at hi, rfl⟩
  exact ⟨_, this, rfl, rfl, rfl, rfl⟩

/-- The hypotheses of C62 are met: the one-body term with general labels is restricted to particles and holes. -/
theorem C62_example : ∃ t r, Term.make [soTensor .hamiltonian 'H' 0 [lab .g 0] [lab .g 1]] (soOp [lab .g 0] [lab .g 1]) 1 = .ok t ∧
    CanonContract plainCanon ∧ SetOrder.sorted.Lawful ∧ t.makeExcitation plainCanon SetOrder.sorted false = .ok r ∧
    Separated true [soTensor .hamiltonian 'H' 0 [lab .g 0] [lab .g 1]] (soOp [lab .g 0] [lab .g 1]) ∧
    (r.coeff, r.tensors, r.sqOp) = (1, [soTensor .hamiltonian 'H' 0 [lab .p 0] [lab .h 0]], soOp [lab .p 0] [lab .h 0]) := by
  obtain ⟨r, h1, h2⟩ := exists_of_map (x := (Term.make [soTensor .hamiltonian 'H' 0 [lab .g 0] [lab .g 1]] (soOp [lab .g 0] [lab .g 1]) 1).bind fun t =>
    t.makeExcitation plainCanon SetOrder.sorted false) (f := fun r => (r.coeff, r.tensors, r.sqOp))
    (b := (1, [soTensor .hamiltonian 'H' 0 [lab .p 0] [lab .h 0]], soOp [lab .p 0] [lab .h 0])) (by decide +kernel)
  cases h : Term.make [soTensor .hamiltonian 'H' 0 [lab .g 0] [lab .g 1]] (soOp [lab .g 0] [lab .g 1]) 1 with
  | error e => rw [h] at h1; cases h1
  | ok t =>
    rw [h] at h1
    refine ⟨t, r, rfl, plainCanon_contract, SetOrder.sorted_lawful, h1, ⟨by simp, ?_, ?_⟩, h2⟩
    · intro a ha
      rw [List.mem_singleton.1 ha]
      rintro (h | ⟨-, h, -⟩) <;> cases h
    · intro a ha
      rw [List.mem_singleton.1 ha]
      intro h; cases h

/-- Labels of beta spin. -/
def exBeta : List Tensor := [⟨.hamiltonian, ['H'], 0, ⟨⟨.spinIntegrated, [⟨⟨.v, true⟩, 0⟩]⟩, ⟨.spinIntegrated, [⟨⟨.c, true⟩, 0⟩]⟩⟩⟩]

/-- An operator of beta labels is never an excitation for `make_excitation`: an operator that creates a virtual and annihilates a core orbital of
beta spin is replaced by zero, although all of it is an excitation. -/
theorem C62_violation_beta : ∃ t r, Term.make exBeta ⟨⟨.spinIntegrated, [⟨⟨.v, true⟩, 0⟩]⟩, ⟨.spinIntegrated, [⟨⟨.c, true⟩, 0⟩]⟩⟩ 1 = .ok t ∧
    t.makeExcitation plainCanon SetOrder.sorted true = .ok r ∧ r.coeff = 0 ∧
    (∀ (orb : Orbitals (Fin 2)) (σ : Index → Fin 2), (∀ i ∈ labelsOf t.tensors t.sqOp, orb.In i.space (σ i)) → ExcitesUnder orb true t.sqOp σ) ∧
    (toy ⟨fun o => if o = 0 then .core else .virt, fun _ => true⟩).value ⟨fun o => if o = 0 then .core else .virt, fun _ => true⟩
      t.coeff t.tensors t.sqOp = 1 := by
  obtain ⟨p, h1, h2⟩ := exists_of_map (x := (Term.make exBeta ⟨⟨.spinIntegrated, [⟨⟨.v, true⟩, 0⟩]⟩, ⟨.spinIntegrated, [⟨⟨.c, true⟩, 0⟩]⟩⟩ 1).bind fun t =>
    (t.makeExcitation plainCanon SetOrder.sorted true).map fun r => (t, r))
    (f := fun p => (p.2.coeff, (toy ⟨fun o => if o = 0 then .core else .virt, fun _ => true⟩).value ⟨fun o => if o = 0 then .core else .virt, fun _ => true⟩
      p.1.coeff p.1.tensors p.1.sqOp)) (b := (0, 1)) (by decide +kernel)
  obtain ⟨t, r⟩ := p
  cases h : Term.make exBeta ⟨⟨.spinIntegrated, [⟨⟨.v, true⟩, 0⟩]⟩, ⟨.spinIntegrated, [⟨⟨.c, true⟩, 0⟩]⟩⟩ 1 with
  | error e => rw [h] at h1; cases h1
  | ok t' =>
    rw [h] at h1
    cases h3 : t'.makeExcitation plainCanon SetOrder.sorted true with
    | error e => simp [Except.bind, Except.map, h3] at h1
    | ok r' =>
      simp only [Except.bind, Except.map, h3, Except.ok.injEq, Prod.mk.injEq] at h1
      obtain ⟨rfl, rfl⟩ := h1
      simp only [Prod.mk.injEq] at h2
      refine ⟨t', r', rfl, h3, h2.1, ?_, h2.2⟩
      have hop : t'.sqOp = ⟨⟨.spinIntegrated, [⟨⟨.v, true⟩, 0⟩]⟩, ⟨.spinIntegrated, [⟨⟨.c, true⟩, 0⟩]⟩⟩ := by
        obtain ⟨-, -, -, rfl⟩ := Term.make_ok.1 h; rfl
      intro orb σ hσ
      have hv := hσ ⟨⟨.v, true⟩, 0⟩ (by rw [mem_labelsOf, mem_labelList, hop]; left; decide)
      have hc := hσ ⟨⟨.c, true⟩, 0⟩ (by rw [mem_labelsOf, mem_labelList, hop]; left; decide)
      rw [hop]
      refine ⟨fun i hi => ?_, fun i hi => ?_⟩
      · rw [List.mem_singleton.1 hi]
        left
        have := hv.1
        generalize orb.elem (σ ⟨⟨.v, true⟩, 0⟩) = e at this
        revert this; revert e; decide
      · rw [List.mem_singleton.1 hi]
        left
        have := hc.1
        generalize orb.elem (σ ⟨⟨.c, true⟩, 0⟩) = e at this
        revert this; revert e; decide

/-! ### C67 make_one_body_diagonal keeps exactly the diagonal blocks -/

section
variable {O R M : Type} [Fintype O] [DecidableEq O] [Inhabited O] [CommRing R] [Algebra ℚ R] [AddCommGroup M] [Module R M]

open Classical in
/-- When `make_one_body_diagonal` returns, the terms add up to the part of the term in which the created and the annihilated orbital belong to
the same elementary space and have the same spin (and are not active, for a single reference).  Partial: labels that densities share with the
operator are core, active or virtual. -/
theorem C67_diagonal_part_partial (canon : List Nat → List (Nat × Nat) → List SlotGroup → Option (List Nat)) (hcanon : CanonContract canon)
    (ord : SetOrder) (hord : ord.Lawful) (ts : List Tensor) (op : SqOp) (c : ℚ) (t : Term) (rows : List Term) (ht : Term.make ts op c = .ok t)
    (singleRef : Bool) (hr : t.makeOneBodyDiagonal canon ord singleRef = .ok rows)
    (cre ann : Index) (hcre : op.upper.list = [cre]) (hann : op.lower.list = [ann])
    (hsep : Separated true ts op)
    (hcum : ∀ x ∈ ts, x.cls = .cumulant → ∀ i ∈ x.upper.list ++ x.lower.list, i = cre ∨ i = ann →
      i.space.kind = .c ∨ i.space.kind = .a ∨ i.space.kind = .v)
    (hc : c = 0 ∨ 1 / 10 ^ 15 ≤ |c|)
    (hkind : ∀ x ∈ ts, ∀ y ∈ ts, x.name = y.name → x.cls = y.cls)
    (orb : Orbitals O) (I : Interp O R M) (hI : I.SlotSymmetric op.upper.ty.isAntisym true)
    (hph : I.Physical orb) (hac : I.ActiveCumulants orb) (hna : I.NoActiveAmplitudes orb) :
    (rows.map fun r => I.value orb r.coeff r.tensors r.sqOp).sum = (algebraMap ℚ R c) •
      ∑ σ ∈ (orb.assignments (labelsOf ts op)).filter fun σ => orb.elem (extendTo σ cre) = orb.elem (extendTo σ ann) ∧
          orb.spin (extendTo σ cre) = orb.spin (extendTo σ ann) ∧ (singleRef = true → orb.elem (extendTo σ cre) ≠ .active),
        I.pval (extendTo σ) ts • I.opval (extendTo σ) op :=
  makeOneBodyDiagonal_value hcanon hord ht hr hcre hann hsep hcum hc hkind orb I hI hph hac hna

end

/-- Operators that are not one-body raise `ValueError`. -/
theorem C67_other_operators (canon : List Nat → List (Nat × Nat) → List SlotGroup → Option (List Nat)) (ord : SetOrder) (t : Term) (singleRef : Bool)
    (h : ¬ (t.sqOp.upper.list.length = 1 ∧ t.sqOp.lower.list.length = 1)) :
    t.makeOneBodyDiagonal canon ord singleRef = .error .valueError := by
  unfold Term.makeOneBodyDiagonal IndicesPair.nBody
  by_cases h1 : t.sqOp.nLower ≠ t.sqOp.nUpper
  · rw [if_pos h1]; rfl
  · rw [if_neg h1]
    have h2 : t.sqOp.lower.list.length = t.sqOp.upper.list.length := not_not.1 h1
    have h3 : t.sqOp.nLower ≠ 1 := by
      intro h3
      have h3 : t.sqOp.lower.list.length = 1 := h3
      exact h ⟨by omega, h3⟩
    simp only [bind, Except.bind]
    rw [if_pos h3]; rfl

theorem toy_hermitian (orb : Orbitals (Fin 2)) : (toy orb).Hermitian := by
  have e : ∀ u l : List (Fin 2), ((l ++ u).all fun o => decide (orb.elem o = .active)) = ((u ++ l).all fun o => decide (orb.elem o = .active)) := by
    intro u l
    rw [List.all_append, List.all_append, Bool.and_comm]
  have d : ∀ a b : Fin 2, (if b = a then (1 : ℚ) else 0) = if a = b then 1 else 0 := by decide
  intro cls name u l
  unfold toy
  rcases u with _ | ⟨a, _ | ⟨a', u⟩⟩ <;> rcases l with _ | ⟨b, _ | ⟨b', l⟩⟩ <;> cases cls <;> simp only [e, d]

theorem toy_pairSymmetric (orb : Orbitals (Fin 2)) : (toy orb).PairSymmetric := by
  intro cls name pre a b post pre' a' b' post' _
  have e : ((pre ++ b :: a :: post ++ (pre' ++ b' :: a' :: post')).all fun o => decide (orb.elem o = .active)) =
      ((pre ++ a :: b :: post ++ (pre' ++ a' :: b' :: post')).all fun o => decide (orb.elem o = .active)) := by
    apply List.Perm.all_eq
    exact ((List.Perm.swap _ _ _).append_left _).append ((List.Perm.swap _ _ _).append_left _)
  unfold toy
  rcases pre with _ | ⟨x, _ | ⟨x', pre⟩⟩ <;> cases cls <;> simp only [List.nil_append, List.cons_append] at e ⊢ <;> simp only [e]

/-- The condition on densities is needed: in `L^{h0 a0}_{a1 a2} H^{a1 a2}_{h1 a0} a^{h1}_{h0}` (spin-adapted labels) the core block vanishes, since
densities of two bodies have active labels only.  `make_one_body_diagonal` returns it as `L^{a0 a3}_{a1 a2} H^{a1 a2}_{c0 a3} a^{c0}_{a0}`, which is
neither zero nor diagonal, and the rows do not add up to the diagonal part. -/
theorem C67_violation_density : ∃ (ts : List Tensor) (op : SqOp) (t : Term) (rows : List Term) (cre ann : Index),
    Term.make ts op 1 = .ok t ∧ t.makeOneBodyDiagonal plainCanon SetOrder.sorted false = .ok rows ∧
    op.upper.list = [cre] ∧ op.lower.list = [ann] ∧ Separated true ts op ∧ (∀ x ∈ ts, ∀ y ∈ ts, x.name = y.name → x.cls = y.cls) ∧
    (∃ r ∈ rows, ∃ c a, r.sqOp.upper.list = [c] ∧ r.sqOp.lower.list = [a] ∧ c.space.kind = .c ∧ a.space.kind = .a) ∧
    ∃ (orb : Orbitals (Fin 2)) (I : Interp (Fin 2) ℚ ℚ), I.SlotSymmetric op.upper.ty.isAntisym true ∧ I.Physical orb ∧ I.ActiveCumulants orb ∧
      I.NoActiveAmplitudes orb ∧
      (rows.map fun r => I.value orb r.coeff r.tensors r.sqOp).sum ≠
        ∑ σ ∈ (orb.assignments (labelsOf ts op)).filter fun σ => orb.elem (extendTo σ cre) = orb.elem (extendTo σ ann) ∧
            orb.spin (extendTo σ cre) = orb.spin (extendTo σ ann), I.pval (extendTo σ) ts • I.opval (extendTo σ) op := by
  let sa (l : List Index) : Indices := ⟨.spinAdapted, l⟩
  let ts : List Tensor := [⟨.cumulant, ['L'], 2, ⟨sa [lab .h 0, lab .a 0], sa [lab .a 1, lab .a 2]⟩⟩,
    ⟨.hamiltonian, ['H'], 0, ⟨sa [lab .a 1, lab .a 2], sa [lab .h 1, lab .a 0]⟩⟩]
  let op : SqOp := ⟨sa [lab .h 1], sa [lab .h 0]⟩
  let row (c h : Index) (l : List Index) : List Tensor × SqOp :=
    match l with
    | [x, y, z] => ([⟨.hamiltonian, ['H'], 0, ⟨sa [x, y], sa [c, z]⟩⟩, ⟨.cumulant, ['L'], 2, ⟨sa [h, z], sa [x, y]⟩⟩], ⟨sa [c], sa [h]⟩)
    | _ => ([], op)
  have key : ∃ rows, ((Term.make ts op 1).bind fun t => t.makeOneBodyDiagonal plainCanon SetOrder.sorted false) = .ok rows ∧
      (rows.map fun r => (r.coeff, r.tensors, r.sqOp)) =
      [(1, row (lab .c 0) (lab .a 0) [lab .a 1, lab .a 2, lab .a 3]), (1, row (lab .a 0) (lab .a 1) [lab .a 2, lab .a 3, lab .a 4])] :=
    exists_of_map (by decide +kernel)
  obtain ⟨rows, h1, h2⟩ := key
  cases h : Term.make ts op 1 with
  | error e => rw [h] at h1; cases h1
  | ok t =>
    rw [h] at h1
    refine ⟨ts, op, t, rows, lab .h 1, lab .h 0, h, h1, rfl, rfl, ?_, by decide +kernel, ?_, coreActive, toy coreActive, ?_,
      toy_physical _ (by decide) (by decide), toy_activeCumulants _, toy_noActiveAmplitudes _, ?_⟩
    · refine ⟨?_, ?_, by decide +kernel⟩
      · refine List.Pairwise.cons ?_ (List.pairwise_singleton _ _)
        intro b hb h
        rw [List.mem_singleton.1 hb] at h
        rcases h with ⟨h | ⟨-, -, u, l, h, -⟩, -⟩ | ⟨-, h | ⟨-, h, -⟩⟩
        · exact absurd h (by decide)
        · exact absurd (congrArg List.length h) (by simp [sa])
        · exact absurd h (by decide)
        · exact absurd h (by decide)
      · intro a ha h
        simp only [ts, List.mem_cons, List.not_mem_nil, or_false] at ha
        rcases ha with rfl | rfl
        · rcases h with h | ⟨-, -, u, l, h, -⟩
          · exact absurd h (by decide)
          · exact absurd (congrArg List.length h) (by simp [sa])
        · rcases h with h | ⟨-, h, -⟩ <;> exact absurd h (by decide)
    · cases rows with
      | nil => cases h2
      | cons r rows =>
        simp only [List.map_cons, List.cons.injEq, Prod.mk.injEq] at h2
        refine ⟨r, by simp, lab .c 0, lab .a 0, ?_, ?_, rfl, rfl⟩ <;> rw [show r.sqOp = _ from congrArg Prod.snd h2.1.2]
    · exact ⟨fun h => absurd h (by decide), fun _ => toy_pairSymmetric _, fun _ => toy_hermitian _⟩
    · have h3 : (rows.map fun r => (toy coreActive).value coreActive r.coeff r.tensors r.sqOp).sum =
          ((rows.map fun r => (r.coeff, r.tensors, r.sqOp)).map fun e => (toy coreActive).value coreActive e.1 e.2.1 e.2.2).sum := by
        rw [List.map_map]; rfl
      rw [h3, h2]
      decide +kernel

/-- The hypotheses of C67 are met: three diagonal blocks, and two for a single reference. -/
theorem C67_example : ∃ t rows rows', Term.make [soTensor .hamiltonian 'H' 0 [lab .g 0] [lab .g 1]] (soOp [lab .g 0] [lab .g 1]) 1 = .ok t ∧
    t.makeOneBodyDiagonal plainCanon SetOrder.sorted false = .ok rows ∧ t.makeOneBodyDiagonal plainCanon SetOrder.sorted true = .ok rows' ∧
    rows.length = 3 ∧ rows'.map (fun r => (r.coeff, r.tensors, r.sqOp)) =
      [(1, [soTensor .hamiltonian 'H' 0 [lab .v 0] [lab .v 1]], soOp [lab .v 0] [lab .v 1]),
       (1, [soTensor .hamiltonian 'H' 0 [lab .c 0] [lab .c 1]], soOp [lab .c 0] [lab .c 1])] := by
  obtain ⟨p, h1, h2⟩ := exists_of_map (x := (Term.make [soTensor .hamiltonian 'H' 0 [lab .g 0] [lab .g 1]] (soOp [lab .g 0] [lab .g 1]) 1).bind fun t =>
    (t.makeOneBodyDiagonal plainCanon SetOrder.sorted false).bind fun rows => (t.makeOneBodyDiagonal plainCanon SetOrder.sorted true).map fun rows' => (rows, rows'))
    (f := fun p => (p.1.length, p.2.map fun r => (r.coeff, r.tensors, r.sqOp)))
    (b := (3, [(1, [soTensor .hamiltonian 'H' 0 [lab .v 0] [lab .v 1]], soOp [lab .v 0] [lab .v 1]),
       (1, [soTensor .hamiltonian 'H' 0 [lab .c 0] [lab .c 1]], soOp [lab .c 0] [lab .c 1])])) (by decide +kernel)
  cases h : Term.make [soTensor .hamiltonian 'H' 0 [lab .g 0] [lab .g 1]] (soOp [lab .g 0] [lab .g 1]) 1 with
  | error e => rw [h] at h1; cases h1
  | ok t =>
    rw [h] at h1
    simp only [Except.bind] at h1
    cases h3 : t.makeOneBodyDiagonal plainCanon SetOrder.sorted false with
    | error e => rw [h3] at h1; cases h1
    | ok rows =>
      rw [h3] at h1
      simp only at h1
      cases h4 : t.makeOneBodyDiagonal plainCanon SetOrder.sorted true with
      | error e => rw [h4] at h1; cases h1
      | ok rows' =>
        rw [h4] at h1
        simp only [Except.map, Except.ok.injEq] at h1
        subst h1
        simp only [Prod.mk.injEq] at h2
        exact ⟨t, rows, rows', rfl, h3, h4, h2.1, h2.2⟩

/-! ### C68 gradient_t is the derivative with respect to the amplitudes -/

section
variable {O R : Type} [Fintype O] [DecidableEq O] [Inhabited O] [CommRing R] [Algebra ℚ R]

/-- The terms of `gradient_t` are the first-order change of the term when the amplitudes are changed by an infinitesimal `ε`
(`ε * ε = 0`, for example in the dual numbers) times any direction. -/
theorem C68_gradient (canon : List Nat → List (Nat × Nat) → List SlotGroup → Option (List Nat)) (hcanon : CanonContract canon)
    (ord : SetOrder) (hord : ord.Lawful) (ts : List Tensor) (op : SqOp) (c : ℚ) (t : Term) (rows : List Term) (ht : Term.make ts op c = .ok t)
    (hr : t.gradientT canon ord = .ok rows)
    (hbal : ∀ x ∈ ts, x.cls = .cluster → x.upper.list.length = x.lower.list.length)
    (hsep : Separated true ts op) (hc : c = 0 ∨ 1 / 10 ^ 15 ≤ |c|)
    (hkind : ∀ x ∈ ts, ∀ y ∈ ts, x.name = y.name → x.cls = y.cls)
    (orb : Orbitals O) (I : Interp O R R) (hI : I.SlotSymmetric op.upper.ty.isAntisym true)
    (hph : I.Physical orb) (hac : I.ActiveCumulants orb) (hna : I.NoActiveAmplitudes orb) (h1 : I.op [] [] = 1) (ε : R) (hε : ε * ε = 0) :
    (I.shiftAmplitudes ε).value orb c ts op = I.value orb c ts op + ε * (rows.map fun r => I.value orb r.coeff r.tensors r.sqOp).sum :=
  gradient_value hcanon hord ht hr hbal hsep hc hkind orb I hI hph hac hna h1 hε

end

/-- One term is returned for each amplitude, and terms with an operator raise `NotImplementedError`. -/
theorem C68_count (canon : List Nat → List (Nat × Nat) → List SlotGroup → Option (List Nat)) (ord : SetOrder) (t : Term) (rows : List Term)
    (h : t.gradientT canon ord = .ok rows) : rows.length = t.tensors.countP fun x => decide (x.cls = .cluster) := by
  unfold Term.gradientT at h
  simp only [bind, Except.bind] at h
  cases hnb : t.sqOp.nBody with
  | error e => rw [hnb] at h; cases h
  | ok n =>
    rw [hnb] at h
    simp only at h
    by_cases hn : n ≠ 0
    · rw [if_pos hn] at h; cases h
    rw [if_neg hn] at h
    rw [← (mapM_ok_forall₂.1 h).length_eq, List.length_zipIdx, List.countP_eq_length_filter]

/-- The hypotheses of C68 are met: `T^{c0}_{v0} F^{v0}_{c0}`. -/
theorem C68_example : ∃ t rows, Term.make [soTensor .cluster 'T' 1 [lab .c 0] [lab .v 0], soTensor .hamiltonian 'F' 0 [lab .v 0] [lab .c 0]] (soOp [] []) 1 = .ok t ∧
    t.gradientT plainCanon SetOrder.sorted = .ok rows ∧ rows.map (fun r => (r.coeff, r.tensors, r.sqOp)) =
      [(1, [soTensor .hamiltonian 'F' 0 [lab .v 0] [lab .c 0]], soOp [lab .v 0] [lab .c 0])] := by
  obtain ⟨rows, h1, h2⟩ := exists_of_map (x := (Term.make [soTensor .cluster 'T' 1 [lab .c 0] [lab .v 0], soTensor .hamiltonian 'F' 0 [lab .v 0] [lab .c 0]] (soOp [] []) 1).bind fun t =>
    t.gradientT plainCanon SetOrder.sorted) (f := fun rows => rows.map (fun r => (r.coeff, r.tensors, r.sqOp)))
    (b := [(1, [soTensor .hamiltonian 'F' 0 [lab .v 0] [lab .c 0]], soOp [lab .v 0] [lab .c 0])]) (by decide +kernel)
  cases h : Term.make [soTensor .cluster 'T' 1 [lab .c 0] [lab .v 0], soTensor .hamiltonian 'F' 0 [lab .v 0] [lab .c 0]] (soOp [] []) 1 with
  | error e => rw [h] at h1; cases h1
  | ok t => rw [h] at h1; exact ⟨t, rows, rfl, h1, h2⟩

end Dsrg
