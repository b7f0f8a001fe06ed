import Verif.Props.Schedule
import Verif.Model.ZerothOrder

/-!
Operations on terms and the order in which python iterates over sets: C106.
-/

namespace Dsrg

section
variable {ord ord' : SetOrder}

/-! ### C106 operations on terms do not depend on the iteration order of sets -/

/-- `canonicalize` of any term, with any options. -/
theorem C106_canonicalize (canon : CanonFn) (hord : ord.Lawful) (hord' : ord'.Lawful) (t : Term) (core removeActive hermitian : Bool) :
    t.canonicalize canon ord core removeActive hermitian = t.canonicalize canon ord' core removeActive hermitian := by
  unfold Term.canonicalize
  split_ifs with h
  · rfl
  · rw [not_not, Finset.card_eq_zero] at h
    rw [canonicalizeSympy_eq, canonicalizeSympy_eq, Term.simplify_order h hord hord']

/-- `canonicalize_sympy`, `canonicalize_simple` and `simplify` of a term without labels that occur twice in one factor: for example a term built
with the library. -/
theorem C106_library (m : Machine) (hcanon : CanonContract m.canon) (hordm : m.ord.Lawful) (hcpu : 1 ≤ m.cpus) (hord : ord.Lawful) (hord' : ord'.Lawful)
    (canon : CanonFn) (t : Term) (h : LibraryTerm m t) (core removeActive hermitian : Bool) :
    t.simplify ord core removeActive = t.simplify ord' core removeActive ∧
    t.canonicalizeSimple ord core removeActive = t.canonicalizeSimple ord' core removeActive ∧
    t.canonicalizeSympy canon ord core removeActive hermitian = t.canonicalizeSympy canon ord' core removeActive hermitian := by
  obtain ⟨ts, op, c, ht, -, -, -, hdiag, -⟩ := printable_of_nice (h.nice hcanon hordm hcpu) (h.distinct hcanon hordm hcpu)
  have hd : t.diag = ∅ := hdiag
  have e := Term.simplify_order hd hord hord' core removeActive
  refine ⟨e, ?_, ?_⟩
  · unfold Term.canonicalizeSimple; rw [e]
  · rw [canonicalizeSympy_eq, canonicalizeSympy_eq, e]

/-- `gradient_t` of any term. -/
theorem C106_gradient_t (canon : CanonFn) (hord : ord.Lawful) (hord' : ord'.Lawful) (t : Term) : t.gradientT canon ord = t.gradientT canon ord' := by
  have e : t.gradientRow canon ord = t.gradientRow canon ord' := by
    funext x rest
    unfold Term.gradientRow
    simp only [C106_canonicalize canon hord hord']
  unfold Term.gradientT
  rw [e]

/-- `generate_spin_cases_naive` of any term. -/
theorem C106_generate_spin_cases (canon : CanonFn) (hord : ord.Lawful) (hord' : ord'.Lawful) (t : Term) :
    t.generateSpinCasesNaive canon ord = t.generateSpinCasesNaive canon ord' := by
  have e : spinCase canon ord = spinCase canon ord' := by
    funext c op ts
    unfold spinCase
    simp only [C106_canonicalize canon hord hord']
  unfold Term.generateSpinCasesNaive
  rw [e]

theorem spaces_singleton (h : ord.Lawful) (s : Space) : ord.spaces {s} = [s] := by
  have h1 := h.spaces_nodup {s}
  have h2 := h.mem_spaces {s}
  cases e : ord.spaces {s} with
  | nil => have := (h2 s).2 (by simp); rw [e] at this; simp at this
  | cons a l =>
    rw [e] at h1 h2
    obtain rfl : a = s := by simpa using (h2 a).1 (by simp)
    cases l with
    | nil => rfl
    | cons b l =>
      obtain rfl : b = a := by simpa using (h2 b).1 (by simp)
      simp at h1

theorem restrictedSpace_order (hord : ord.Lawful) (hord' : ord'.Lawful) {target : Space} (ht : target.relation.card ≤ 2) (s : Space) :
    restrictedSpace ord target s = restrictedSpace ord' target s := by
  unfold restrictedSpace
  simp only
  split_ifs with h1 h2
  · rfl
  · rfl
  · have hlt : (target.relation ∩ s.relation).card < target.relation.card :=
      Finset.card_lt_card (Finset.ssubset_iff_subset_ne.2 ⟨Finset.inter_subset_left, h2⟩)
    have hpos : 0 < (target.relation ∩ s.relation).card := Finset.card_pos.2 (Finset.nonempty_iff_ne_empty.2 h1)
    obtain ⟨x, hx⟩ := Finset.card_eq_one.1 (show (target.relation ∩ s.relation).card = 1 by omega)
    rw [hx, spaces_singleton hord, spaces_singleton hord']

/-- `make_excitation` of any term. -/
theorem C106_make_excitation (canon : CanonFn) (hord : ord.Lawful) (hord' : ord'.Lawful) (t : Term) (singleRef : Bool) :
    t.makeExcitation canon ord singleRef = t.makeExcitation canon ord' singleRef := by
  have e1 : restrictedSpace ord ⟨if singleRef then .v else .p, false⟩ = restrictedSpace ord' ⟨if singleRef then .v else .p, false⟩ := by
    funext s; exact restrictedSpace_order hord hord' (by cases singleRef <;> decide) s
  have e2 : restrictedSpace ord ⟨if singleRef then .c else .h, false⟩ = restrictedSpace ord' ⟨if singleRef then .c else .h, false⟩ := by
    funext s; exact restrictedSpace_order hord hord' (by cases singleRef <;> decide) s
  unfold Term.makeExcitation
  simp only [e1, e2, C106_canonicalize canon hord hord']

theorem spaces_perm (hord : ord.Lawful) (hord' : ord'.Lawful) (s : Finset Space) : (ord.spaces s).Perm (ord'.spaces s) :=
  (List.perm_ext_iff_of_nodup (hord.spaces_nodup s) (hord'.spaces_nodup s)).2 fun i => by rw [hord.mem_spaces, hord'.mem_spaces]

theorem mapM_perm {α β ε : Type} {f : α → Except ε β} {l l' : List α} {r : List β} (hp : l.Perm l') (h : l.mapM f = .ok r) :
    ∃ r', l'.mapM f = .ok r' ∧ r.Perm r' := by
  obtain ⟨r', h1, h2⟩ := List.perm_comp_forall₂ hp.symm (mapM_ok_forall₂.1 h)
  exact ⟨r', mapM_ok_forall₂.2 h1, h2.symm⟩

/-- `make_one_body_diagonal` of any term: the same terms, in another order. -/
theorem C106_make_one_body_diagonal (canon : CanonFn) (hord : ord.Lawful) (hord' : ord'.Lawful) (t : Term) (singleRef : Bool) (rows : List Term)
    (h : t.makeOneBodyDiagonal canon ord singleRef = .ok rows) :
    ∃ rows', t.makeOneBodyDiagonal canon ord' singleRef = .ok rows' ∧ rows.Perm rows' := by
  have e : t.diagonalRow canon ord = t.diagonalRow canon ord' := by
    funext x y s
    unfold Term.diagonalRow
    simp only [C106_canonicalize canon hord hord']
  unfold Term.makeOneBodyDiagonal at h ⊢
  obtain ⟨n, hn, h⟩ := bind_ok h
  rw [hn]
  rw [← e]
  by_cases h1 : n = 1
  · subst h1
    cases hu : t.sqOp.upper.list with
    | nil => rw [hu] at h; cases h
    | cons cre us =>
      cases hl : t.sqOp.lower.list with
      | nil => rw [hu, hl] at h; cases h
      | cons ann ls =>
        rw [hu, hl] at h
        exact mapM_perm (spaces_perm hord hord' _) h
  · simp only [ne_eq, h1, not_false_eq_true, if_true] at h
    cases h

/-- `make_ddca` and `expand_composite_indices` of a term whose labels are all labels of the operator: the same blocks, in another order. -/
theorem C106_blocks_partial (hord : ord.Lawful) (hord' : ord'.Lawful) (ts : List Tensor) (op : SqOp) (c : ℚ) (t : Term) (ht : Term.make ts op c = .ok t)
    (hset : ∀ x ∈ ts, ∀ i ∈ x.upper.list ++ x.lower.list, i ∈ op.upper.list ++ op.lower.list) (hop : (op.upper.list ++ op.lower.list).Nodup)
    (maxCore maxVirt : Int) (singleRef : Bool) (start : Nat) (rows rows' : List Term)
    (h : t.makeDdca ord maxCore maxVirt singleRef start = .ok rows) (h' : t.makeDdca ord' maxCore maxVirt singleRef start = .ok rows') :
    rows.Perm rows' := by
  obtain ⟨-, -, -, rfl⟩ := Term.make_ok.1 ht
  refine makeDdca_order (t := ⟨c, op, sortTensors ts, labelsOf ts op, nextNumbers (labelsOf ts op), diagonalOf ts op⟩) hord hord' ?_ hop h h'
  intro i hi
  rw [mem_labelsOf, mem_labelList] at hi
  rcases hi with hi | ⟨x, hx, hi⟩
  · exact hi
  · exact hset x hx i hi

/-- The zeroth-order Hamiltonians: the same terms, in another order. -/
theorem C106_zeroth_order (canon : CanonFn) (hord : ord.Lawful) (hord' : ord'.Lawful) (singleRef : Bool) :
    (∀ rows rows', diagonalFockOperator canon ord singleRef = .ok rows → diagonalFockOperator canon ord' singleRef = .ok rows' → rows.Perm rows') ∧
    (∀ rows rows', dyallHamiltonian canon ord = .ok rows → dyallHamiltonian canon ord' = .ok rows' → rows.Perm rows') ∧
    (∀ rows rows', finkHamiltonian canon ord singleRef = .ok rows → finkHamiltonian canon ord' singleRef = .ok rows' → rows.Perm rows') := by
  have one : ∀ (t : Term) (b : Bool) (rows rows' : List Term), t.makeOneBodyDiagonal canon ord b = .ok rows →
      t.makeOneBodyDiagonal canon ord' b = .ok rows' → rows.Perm rows' := by
    intro t b rows rows' h h'
    obtain ⟨r, hr, hp⟩ := C106_make_one_body_diagonal canon hord hord' t b rows h
    rw [h'] at hr
    injection hr with hr
    exact hr ▸ hp
  refine ⟨fun rows rows' h h' => ?_, fun rows rows' h h' => ?_, fun rows rows' h h' => ?_⟩
  · unfold diagonalFockOperator at h h'
    obtain ⟨t, ht, h⟩ := bind_ok h
    obtain ⟨t', ht', h'⟩ := bind_ok h'
    obtain rfl : t = t' := by rw [ht] at ht'; injection ht'
    exact one _ _ _ _ h h'
  · unfold dyallHamiltonian at h h'
    obtain ⟨a, ha, h⟩ := bind_ok h
    obtain ⟨a', ha', h'⟩ := bind_ok h'
    obtain rfl : a = a' := by rw [ha] at ha'; injection ha'
    obtain ⟨b, hb, h⟩ := bind_ok h
    obtain ⟨b', hb', h'⟩ := bind_ok h'
    obtain rfl : b = b' := by rw [hb] at hb'; injection hb'
    obtain ⟨x, hx, h⟩ := bind_ok h
    obtain ⟨x', hx', h'⟩ := bind_ok h'
    obtain rfl : x = x' := by rw [hx] at hx'; injection hx'
    obtain ⟨op, hop, h⟩ := bind_ok h
    obtain ⟨op', hop', h'⟩ := bind_ok h'
    obtain rfl : op = op' := by rw [hop] at hop'; injection hop'
    obtain ⟨v, hv, h⟩ := bind_ok h
    obtain ⟨v', hv', h'⟩ := bind_ok h'
    obtain rfl : v = v' := by rw [hv] at hv'; injection hv'
    obtain ⟨t, ht, h⟩ := bind_ok h
    obtain ⟨t', ht', h'⟩ := bind_ok h'
    obtain rfl : t = t' := by rw [ht] at ht'; injection ht'
    obtain ⟨r, hr, h⟩ := bind_ok h
    obtain ⟨r', hr', h'⟩ := bind_ok h'
    injection h with h
    injection h' with h'
    rw [← h, ← h']
    exact (one _ _ _ _ hr hr').append_right _
  · unfold finkHamiltonian at h h'
    obtain ⟨t, ht, h⟩ := bind_ok h
    obtain ⟨t', ht', h'⟩ := bind_ok h'
    obtain rfl : t = t' := by rw [ht] at ht'; injection ht'
    obtain ⟨r, hr, h⟩ := bind_ok h
    obtain ⟨r', hr', h'⟩ := bind_ok h'
    obtain ⟨v, hv, h⟩ := bind_ok h
    obtain ⟨v', hv', h'⟩ := bind_ok h'
    obtain rfl : v = v' := by rw [hv] at hv'; injection hv'
    obtain ⟨s, hs, h⟩ := bind_ok h
    obtain ⟨s', hs', h'⟩ := bind_ok h'
    injection h with h
    injection h' with h'
    rw [← h, ← h']
    exact (one _ _ _ _ hr hr').append ((hamiltonian_ddca_order hord hord' hv hs hs').filter _)

/-- A term with two labels that are not labels of the operator: with another iteration order of sets `expand_composite_indices` gives these labels
other numbers. -/
theorem C106_violation_blocks : ∃ (ord ord' : SetOrder) (t : Term) (rows rows' : List Term), ord.Lawful ∧ ord'.Lawful ∧
    Term.make [soTensor .hamiltonian 'H' 0 [lab .g 1, lab .c 0] [lab .g 0, lab .c 1], soTensor .cluster 'T' 1 [lab .c 1] [lab .c 0]]
      (soOp [lab .g 0] [lab .g 1]) 1 = .ok t ∧
    t.expandCompositeIndices ord true 0 = .ok rows ∧ t.expandCompositeIndices ord' true 0 = .ok rows' ∧
    ¬ (rows.map Term.visible).Perm (rows'.map Term.visible) := by
  have key : (do
      let t ← Term.make [soTensor .hamiltonian 'H' 0 [lab .g 1, lab .c 0] [lab .g 0, lab .c 1], soTensor .cluster 'T' 1 [lab .c 1] [lab .c 0]]
        (soOp [lab .g 0] [lab .g 1]) 1
      let rows ← t.expandCompositeIndices SetOrder.sorted true 0
      let rows' ← t.expandCompositeIndices SetOrder.sorted.reversed true 0
      pure (decide ((rows.map Term.visible).Perm (rows'.map Term.visible))) : Except PyErr Bool) = .ok false := by decide +kernel
  obtain ⟨t, ht, key⟩ := bind_ok key
  obtain ⟨rows, h1, key⟩ := bind_ok key
  obtain ⟨rows', h2, key⟩ := bind_ok key
  refine ⟨SetOrder.sorted, SetOrder.sorted.reversed, t, rows, rows', SetOrder.sorted_lawful, SetOrder.reversed_lawful SetOrder.sorted_lawful, ht, h1,
    h2, ?_⟩
  injection key with key
  exact of_decide_eq_false key

/-- The hypotheses of C106 can be met: the operations succeed with two orders that differ, and the order of the rows differs. -/
theorem C106_example : SetOrder.sorted.Lawful ∧ SetOrder.sorted.reversed.Lawful ∧
    (diagonalFockOperator plainCanon SetOrder.sorted false).isOk = true ∧
    (diagonalFockOperator plainCanon SetOrder.sorted.reversed false).isOk = true ∧
    (diagonalFockOperator plainCanon SetOrder.sorted false).map (List.map Term.visible) ≠
      (diagonalFockOperator plainCanon SetOrder.sorted.reversed false).map (List.map Term.visible) ∧
    (finkHamiltonian plainCanon SetOrder.sorted true).isOk = true ∧ (finkHamiltonian plainCanon SetOrder.sorted.reversed true).isOk = true := by
  refine ⟨SetOrder.sorted_lawful, SetOrder.reversed_lawful SetOrder.sorted_lawful, ?_, ?_, ?_, ?_, ?_⟩ <;> decide +kernel

end

end Dsrg
