import Verif.Lemmas.Canonical
import Verif.Lemmas.Orders
import Verif.Spec.Occurrences
import Verif.Spec.Toy

/-!
Property theorems about terms: construction, factories, fresh labels, `simplify` and `canonicalize_simple`.
-/

namespace Dsrg

/-! ### C37 A Term is accepted exactly when every summation label is paired -/

/-- The constructor succeeds exactly when all factors have the operator's index kind, every label that is not diagonal occurs
twice and every diagonal label occurs an even number of times. -/
theorem C37_accepts (ts : List Tensor) (op : SqOp) (c : ℚ) :
    (∃ t, Term.make ts op c = .ok t) ↔ (∀ x ∈ ts, x.upper.ty = op.upper.ty) ∧
      (∀ i, ¬ DiagonalIn ts op i → occurrences ts op i = 0 ∨ occurrences ts op i = 2) ∧
      (∀ i, DiagonalIn ts op i → occurrences ts op i % 2 = 0) := by
  have hd : ∀ i, DiagonalIn ts op i ↔ i ∈ diagonalOf ts op := fun i => mem_diagonalOf.symm
  constructor
  · rintro ⟨t, h⟩
    obtain ⟨h1, h2, h3, -⟩ := Term.make_ok.1 h
    refine ⟨h1, ?_, ?_⟩
    · intro i hi
      rw [occurrences_eq]
      by_cases hm : i ∈ labelList ts op
      · right; exact h2 i hm (by rwa [← hd])
      · left; exact List.count_eq_zero.2 hm
    · intro i hi
      rw [occurrences_eq]; exact h3 i ((hd i).1 hi)
  · rintro ⟨h1, h2, h3⟩
    refine ⟨_, Term.make_ok.2 ⟨h1, ?_, ?_, rfl⟩⟩
    · intro i hi hid
      have := h2 i (by rwa [hd])
      rw [occurrences_eq] at this
      have := List.count_pos_iff.2 hi
      omega
    · intro i hi
      have := h3 i ((hd i).2 hi)
      rwa [occurrences_eq] at this

/-- A rejected term raises `TypeError` if the index kinds differ and `ValueError` otherwise. -/
theorem C37_rejects (ts : List Tensor) (op : SqOp) (c : ℚ) (e : PyErr) (h : Term.make ts op c = .error e) :
    e = if ∀ x ∈ ts, x.upper.ty = op.upper.ty then .valueError else .typeError := by
  rcases Term.make_error h with ⟨rfl, h'⟩ | ⟨rfl, h'⟩
  · rw [if_neg h']
  · rw [if_pos h']

/-- The term keeps the coefficient, the operator and the tensors, with the tensors sorted. -/
theorem C37_content (ts : List Tensor) (op : SqOp) (c : ℚ) (t : Term) (h : Term.make ts op c = .ok t) :
    t.coeff = c ∧ t.sqOp = op ∧ t.tensors.Perm ts ∧ t.tensors.Pairwise (fun x y => y.pyLt x = .ok false) := by
  obtain ⟨h1, -, -, rfl⟩ := Term.make_ok.1 h
  refine ⟨rfl, rfl, sortTensors_perm ts, ?_⟩
  refine List.Pairwise.imp_of_mem ?_ (sortTensors_sorted ts)
  intro x y hx hy hxy
  rw [(sortTensors_perm ts).mem_iff] at hx hy
  unfold Tensor.pyLt IndicesPair.checkOperand
  rw [if_pos ((h1 y hy).trans (h1 x hx).symm)]
  show Except.ok _ = _
  rw [hxy]

example : ∃ t, Term.make [soTensor .hamiltonian 'H' 0 [lab .g 0] [lab .g 1], soTensor .cluster 'T' 1 [lab .h 0] [lab .p 0]]
    (soOp [lab .g 1, lab .p 0] [lab .g 0, lab .h 0]) (1 / 2) = .ok t :=
  ⟨_, Term.make_ok.2 ⟨by decide, by decide, by decide, rfl⟩⟩
example : ∃ t, Term.make [soTensor .hamiltonian 'H' 0 [lab .g 0] [lab .g 0]] (soOp [lab .g 0] [lab .g 0]) 1 = .ok t :=
  ⟨_, Term.make_ok.2 ⟨by decide, by decide, by decide, rfl⟩⟩

/-! ### C38 Operator factories build valid terms for every rank -/

/-- `hamiltonian_operator(k, start)`: lower labels `start, …, start+k-1`, upper labels `start+k, …, start+2k-1`, the operator
with the two exchanged, coefficient `1/(k!)²`. -/
theorem C38_hamiltonian (k start : Nat) (ty : IType) : ∃ t x, hamiltonianOperator k start ty = .ok t ∧ t.tensors = [x] ∧
    x.cls = .hamiltonian ∧ x.name = ['H'] ∧ x.upper = ⟨ty, consecutive ⟨.g, false⟩ (start + k) k⟩ ∧
    x.lower = ⟨ty, consecutive ⟨.g, false⟩ start k⟩ ∧ t.sqOp.upper = x.lower ∧ t.sqOp.lower = x.upper ∧
    t.coeff = 1 / (k.factorial : ℚ) ^ 2 := by
  unfold hamiltonianOperator
  rw [ofNames_labelNames ty _ _ _ fun _ => Or.inr rfl, ofNames_labelNames ty _ _ _ fun _ => Or.inr rfl]
  simp only [bind, Except.bind, Tensor.make, IndicesPair.make, ne_eq, not_true_eq_false, if_false]
  rw [requireSpin_consecutive ty _ _ _ _ _ (Or.inr rfl)]
  simp only [pure, Except.pure]
  obtain ⟨t, h1, h2, h3, h4⟩ := make_one_tensor ty .hamiltonian ['H'] 0 (consecutive ⟨.g, false⟩ (start + k) k)
    (consecutive ⟨.g, false⟩ start k) (nodup_consecutive _ _ _) (nodup_consecutive _ _ _) (1 / ((k.factorial ^ 2 : Nat) : ℚ))
    (consecutive ⟨.g, false⟩ start k) (consecutive ⟨.g, false⟩ (start + k) k) (Or.inr ⟨rfl, rfl⟩)
  refine ⟨t, _, h1, h2, rfl, rfl, rfl, rfl, ?_, ?_, ?_⟩
  · rw [h3]
  · rw [h3]
  · rw [h4]; push_cast; rfl

/-- `cluster_operator(k, start, …)`: hole labels `start, …, start+k-1` above, particle labels of the same numbers below, the
(de-)excitation operator, coefficient `scale/(k!)²`. -/
theorem C38_cluster (k start : Nat) (excitation : Bool) (name : PyStr) (scale : ℚ) (hole particle : Space) (ty : IType)
    (hs : hole.beta = particle.beta) (ht : ty = .spinOrbital → hole.beta = false) :
    ∃ t x, clusterOperator k start excitation name scale hole particle ty = .ok t ∧ t.tensors = [x] ∧
      x.cls = .cluster ∧ x.name = name ∧ x.upper = ⟨ty, consecutive hole start k⟩ ∧ x.lower = ⟨ty, consecutive particle start k⟩ ∧
      t.sqOp.upper = (if excitation then x.lower else x.upper) ∧ t.sqOp.lower = (if excitation then x.upper else x.lower) ∧
      t.coeff = scale / (k.factorial : ℚ) ^ 2 := by
  unfold clusterOperator
  rw [ofNames_labelNames ty _ _ _ fun h => Or.inr (ht h), ofNames_labelNames ty _ _ _ fun h => Or.inr (hs ▸ ht h)]
  simp only [bind, Except.bind, Tensor.make, IndicesPair.make, ne_eq, not_true_eq_false, if_false]
  rw [requireSpin_consecutive ty _ _ _ _ _ (Or.inr hs)]
  obtain ⟨b1, hb1⟩ := clusterTest_consecutive .v hole start k
  obtain ⟨b2, hb2⟩ := clusterTest_consecutive .c particle start k
  simp only [hb1, hb2, pure, Except.pure]
  cases excitation
  · simp only [Bool.false_eq_true, if_false]
    obtain ⟨t, h1, h2, h3, h4⟩ := make_one_tensor ty .cluster name 1 (consecutive hole start k) (consecutive particle start k)
      (nodup_consecutive _ _ _) (nodup_consecutive _ _ _) (scale / ((k.factorial ^ 2 : Nat) : ℚ))
      (consecutive hole start k) (consecutive particle start k) (Or.inl ⟨rfl, rfl⟩)
    refine ⟨t, _, h1, h2, rfl, rfl, rfl, rfl, ?_, ?_, ?_⟩
    · rw [h3]
    · rw [h3]
    · rw [h4]; push_cast; rfl
  · simp only [if_true]
    obtain ⟨t, h1, h2, h3, h4⟩ := make_one_tensor ty .cluster name 1 (consecutive hole start k) (consecutive particle start k)
      (nodup_consecutive _ _ _) (nodup_consecutive _ _ _) (scale / ((k.factorial ^ 2 : Nat) : ℚ))
      (consecutive particle start k) (consecutive hole start k) (Or.inr ⟨rfl, rfl⟩)
    refine ⟨t, _, h1, h2, rfl, rfl, rfl, rfl, ?_, ?_, ?_⟩
    · rw [h3]
    · rw [h3]
    · rw [h4]; push_cast; rfl

example : consecutive ⟨.g, false⟩ 3 2 = [lab .g 3, lab .g 4] := by decide
example : (⟨.h, false⟩ : Space).beta = (⟨.p, false⟩ : Space).beta ∧ (IType.spinOrbital = .spinOrbital → (⟨.h, false⟩ : Space).beta = false) := by
  decide

/-! ### C39 Generated labels are fresh -/

/-- The labels obtained from successive requests for labels of the given spaces. -/
def requestLabels : List Space → (Space → Nat) → List Index
  | [], _ => []
  | s :: rest, next => (generateNextIndex s next).1 :: requestLabels rest (generateNextIndex s next).2

/-- Successive requests return labels of the requested spaces, all different, none of them in the term. -/
theorem C39_fresh (ts : List Tensor) (op : SqOp) (c : ℚ) (t : Term) (h : Term.make ts op c = .ok t) (requests : List Space) :
    (requestLabels requests t.nextNum).map Index.space = requests ∧ (requestLabels requests t.nextNum).Nodup ∧
      ∀ i ∈ requestLabels requests t.nextNum, occurrences ts op i = 0 := by
  obtain ⟨-, -, -, rfl⟩ := Term.make_ok.1 h
  have key : ∀ (requests : List Space) (next : Space → Nat), (requestLabels requests next).map Index.space = requests ∧
      (requestLabels requests next).Nodup ∧ ∀ i ∈ requestLabels requests next, next i.space ≤ i.number := by
    intro requests
    induction requests with
    | nil => intro next; simp [requestLabels]
    | cons s rest ih =>
      intro next
      obtain ⟨h1, h2, h3⟩ := ih (generateNextIndex s next).2
      refine ⟨by simp only [requestLabels, List.map_cons, h1]; rfl, ?_, ?_⟩
      · rw [requestLabels, List.nodup_cons]
        refine ⟨?_, h2⟩
        intro hm
        have := h3 _ hm
        have := generateNextIndex_lt s next
        omega
      · intro i hi
        rw [requestLabels, List.mem_cons] at hi
        rcases hi with rfl | hi
        · exact le_refl _
        · exact le_trans (generateNextIndex_mono s next _) (h3 i hi)
  obtain ⟨h1, h2, h3⟩ := key requests (nextNumbers (labelsOf ts op))
  refine ⟨h1, h2, ?_⟩
  intro i hi
  rw [occurrences_eq]
  by_contra hne
  have hm : i ∈ labelsOf ts op := mem_labelsOf.2 (List.count_pos_iff.1 (Nat.pos_of_ne_zero hne))
  have := nextNumbers_lt hm
  have := h3 i hi
  omega

example : requestLabels [⟨.g, false⟩, ⟨.a, false⟩, ⟨.g, false⟩] (nextNumbers {lab .g 0, lab .g 4, lab .h 0}) =
    [lab .g 5, lab .a 0, lab .g 6] := by decide +kernel

/-! ### C16 Hermitian conjugation is an involution (terms) -/

/-- With the default priorities of their classes, the tensors of a term are ordered by class: Kronecker deltas first, then Hamiltonians and plain
tensors, then amplitudes, and densities last. -/
theorem C15_default_order (ts : List Tensor) (h : ∀ x ∈ ts, x.priority = x.cls.defaultPriority) (op : SqOp) (coeff : ℚ) (t : Term)
    (ht : Term.make ts op coeff = .ok t) : t.tensors.Pairwise fun x y =>
      (y.cls = .kronecker → x.cls = .kronecker) ∧ (x.cls = .cluster → y.cls ≠ .hamiltonian ∧ y.cls ≠ .tensor) ∧
      (x.cls = .cumulant ∨ x.cls = .hole → y.cls = .cumulant ∨ y.cls = .hole) := by
  obtain ⟨-, -, -, rfl⟩ := Term.make_ok.1 ht
  refine List.Pairwise.imp_of_mem ?_ (sortTensors_sorted ts)
  intro x y hx hy hxy
  have hp : x.priority ≤ y.priority := by
    by_contra hlt
    unfold Tensor.ltCore at hxy
    rw [if_neg (by omega)] at hxy
    simp at hxy
    omega
  rw [h x ((sortTensors_perm ts).mem_iff.1 hx), h y ((sortTensors_perm ts).mem_iff.1 hy)] at hp
  cases hx' : x.cls <;> cases hy' : y.cls <;> simp_all [TCls.defaultPriority]

theorem sortTensors_sorted_eq {ts : List Tensor} (h : ts.Pairwise fun x y => y.ltCore x = false) : sortTensors ts = ts := by
  unfold sortTensors
  exact List.Pairwise.insertionSort_eq (h.imp (by simp))

/-- `from_term` keeps the tensors, multiplies the coefficient by -1 and conjugates the operator iff asked; with the same flags
again it restores the term. -/
theorem C16_term (ts : List Tensor) (U L : Indices) (op : SqOp) (hop : IndicesPair.make U L = .ok op) (c : ℚ) (t : Term)
    (h : Term.make ts op c = .ok t) (flipSign hc : Bool) :
    ∃ t', t.fromTerm flipSign hc = .ok t' ∧ t'.tensors = t.tensors ∧ t'.coeff = (if flipSign then - t.coeff else t.coeff) ∧
      t'.sqOp.upper = (if hc then t.sqOp.lower else t.sqOp.upper) ∧ t'.sqOp.lower = (if hc then t.sqOp.upper else t.sqOp.lower) ∧
      t'.fromTerm flipSign hc = .ok t := by
  obtain ⟨rfl, hty⟩ := IndicesPair.make_eq hop
  obtain ⟨h1, h2, h3, rfl⟩ := Term.make_ok.1 h
  have hsort : sortTensors (sortTensors ts) = sortTensors ts := sortTensors_sorted_eq (sortTensors_sorted ts)
  have hp := sortTensors_perm ts
  -- the conjugated operator has the same labels
  have key : ∀ b : Bool, ∀ op' : SqOp, op' = (if b then ⟨L, U⟩ else ⟨U, L⟩) → ∀ c' : ℚ,
      Term.make (sortTensors ts) op' c' = .ok { coeff := c', sqOp := op', tensors := sortTensors ts,
                                                 indicesSet := labelsOf ts ⟨U, L⟩, nextNum := nextNumbers (labelsOf ts ⟨U, L⟩), diag := diagonalOf ts ⟨U, L⟩ } := by
    intro b op' hop' c'
    have hl : (labelList (sortTensors ts) op').Perm (labelList ts ⟨U, L⟩) := by
      refine (labelList_perm hp op').trans ?_
      unfold labelList
      refine List.Perm.append_right _ ?_
      cases b <;> rw [hop']
      · exact .refl _
      · exact List.perm_append_comm
    have hd : diagonalOf (sortTensors ts) op' = diagonalOf ts ⟨U, L⟩ := by
      ext i
      rw [mem_diagonalOf, mem_diagonalOf]
      simp only [hp.mem_iff]
      cases b <;> rw [hop'] <;> simp [and_comm]
    have hls : labelsOf (sortTensors ts) op' = labelsOf ts ⟨U, L⟩ := by
      ext i; rw [mem_labelsOf, mem_labelsOf, hl.mem_iff]
    rw [Term.make_ok]
    refine ⟨?_, ?_, ?_, ?_⟩
    · intro x hx
      rw [h1 x (hp.mem_iff.1 hx)]
      cases b <;> rw [hop']
      · rfl
      · exact hty
    · intro i hi hid
      rw [hl.count_eq]
      exact h2 i (hl.mem_iff.1 hi) (by rwa [hd] at hid)
    · intro i hi
      rw [hl.count_eq]
      exact h3 i (by rwa [hd] at hi)
    · rw [hsort, hls, hd]
  have hclone : ∀ b b' : Bool, IndicesPair.clone (if b then ⟨L, U⟩ else ⟨U, L⟩) b' =
      .ok (if (b != b') then (⟨L, U⟩ : SqOp) else ⟨U, L⟩) := by
    intro b b'
    cases b <;> cases b' <;> simp [IndicesPair.clone, IndicesPair.make, hty]
  refine ⟨{ coeff := (if flipSign then -1 else 1) * c, sqOp := (if hc then ⟨L, U⟩ else ⟨U, L⟩), tensors := sortTensors ts,
            indicesSet := labelsOf ts ⟨U, L⟩, nextNum := nextNumbers (labelsOf ts ⟨U, L⟩), diag := diagonalOf ts ⟨U, L⟩ },
    ?_, rfl, ?_, ?_, ?_, ?_⟩
  · unfold Term.fromTerm
    simp only [bind, Except.bind]
    have := hclone false hc
    simp only [Bool.false_eq_true, if_false] at this
    rw [this]
    have h' : (if (false != hc) = true then (⟨L, U⟩ : SqOp) else ⟨U, L⟩) = if hc then ⟨L, U⟩ else ⟨U, L⟩ := by cases hc <;> rfl
    rw [h']
    exact key hc _ rfl _
  · cases flipSign <;> simp
  · cases hc <;> rfl
  · cases hc <;> rfl
  · unfold Term.fromTerm
    simp only [bind, Except.bind]
    have := hclone hc hc
    simp only [bne_self_eq_false, Bool.false_eq_true, if_false] at this
    rw [this]
    simp only []
    rw [key false ⟨U, L⟩ rfl]
    cases flipSign <;> simp

example : ∃ op t, IndicesPair.make ⟨.spinOrbital, [lab .p 0]⟩ ⟨.spinOrbital, [lab .h 0]⟩ = .ok op ∧
    Term.make [soTensor .cluster 'T' 1 [lab .h 0] [lab .p 0]] op 1 = .ok t :=
  ⟨_, _, rfl, Term.make_ok.2 ⟨by decide, by decide, by decide, rfl⟩⟩

/-! ### C09 Canonical tensors and operators -/

/-- For antisymmetric tensors: a tensor is `sign` times the canonical tensor, which has the same labels. -/
theorem C09_tensor {O R M : Type} [CommRing R] [AddCommGroup M] (I : Interp O R M) (hI : I.Antisymmetric) (σ : Index → O) (t : Tensor)
    (hu : t.upper.WF) (hl : t.lower.WF) :
    I.tval σ t = (t.canonicalize.2 : R) * I.tval σ t.canonicalize.1 ∧
      t.canonicalize.1.upper.list.Perm t.upper.list ∧ t.canonicalize.1.lower.list.Perm t.lower.list ∧
      t.canonicalize.1.cls = t.cls ∧ t.canonicalize.1.name = t.name ∧ t.canonicalize.1.priority = t.priority :=
  ⟨I.tval_canonicalize hI σ t hu.1 hl.1, canonicalize_perm _, canonicalize_perm _, rfl, rfl, rfl⟩

/-- The same for operator strings. -/
theorem C09_operator {O R M : Type} [CommRing R] [AddCommGroup M] (I : Interp O R M) (hI : I.Antisymmetric) (σ : Index → O) (op : SqOp)
    (hu : op.upper.WF) (hl : op.lower.WF) :
    I.opval σ op = op.canonicalize.2 • I.opval σ op.canonicalize.1 ∧
      op.canonicalize.1.upper.list.Perm op.upper.list ∧ op.canonicalize.1.lower.list.Perm op.lower.list :=
  ⟨I.opval_canonicalize hI σ op hu.1 hl.1, canonicalize_perm _, canonicalize_perm _⟩

/-! ### C40 simplify preserves the value of a term -/

section
variable {O R M : Type} [Fintype O] [DecidableEq O] [Inhabited O] [CommRing R] [Algebra ℚ R] [AddCommGroup M] [Module R M]

/-- On terms whose deltas share no label with another delta or density (nor with a diagonal label), and whose many-body
densities can be active, `simplify` keeps the value. -/
theorem C40_simplify_partial (ord : SetOrder) (hord : ord.Lawful) (ts : List Tensor) (op : SqOp) (c : ℚ) (t t' : Term)
    (ht : Term.make ts op c = .ok t) (core removeActive : Bool) (hsep : Separated core ts op)
    (h : t.simplify ord core removeActive = .ok t') (orb : Orbitals O) (I : Interp O R M) (hph : I.Physical orb)
    (hac : I.ActiveCumulants orb) (hna : removeActive = true → I.NoActiveAmplitudes orb) :
    I.value orb t'.coeff t'.tensors t'.sqOp = I.value orb c ts op := by
  have hw := Term.wf_of_make ht
  obtain ⟨-, -, -, rfl⟩ := Term.make_ok.1 ht
  have hp := sortTensors_perm ts
  have hsep' : Separated core (sortTensors ts) op := hsep.perm hp.symm
  have hd : diagonalOf ts op = diagonalOf (sortTensors ts) op := by
    ext i; rw [mem_diagonalOf, mem_diagonalOf]; simp only [hp.mem_iff]
  obtain ⟨h1, -⟩ := Term.simplify_value hord hw hd.subset hsep' hph hac hna h
  rw [h1]
  exact I.value_perm orb c hp op

end

/-- What is visible of a term after `simplify`. -/
def simplifyVisible (ts : List Tensor) (op : SqOp) (core removeActive : Bool) : Except PyErr (ℚ × List Tensor × SqOp) :=
  (Term.make ts op 1 >>= fun t => t.simplify SetOrder.sorted core removeActive).map fun t' => (t'.coeff, t'.tensors, t'.sqOp)

theorem simplifyVisible_ok {ts ts' : List Tensor} {op op' : SqOp} {core removeActive : Bool} {c' : ℚ}
    (h : simplifyVisible ts op core removeActive = .ok (c', ts', op')) :
    ∃ t t', Term.make ts op 1 = .ok t ∧ t.simplify SetOrder.sorted core removeActive = .ok t' ∧ t'.coeff = c' ∧ t'.tensors = ts' ∧
      t'.sqOp = op' := by
  unfold simplifyVisible at h
  simp only [bind, Except.bind] at h
  cases h1 : Term.make ts op 1 with
  | error e => rw [h1] at h; simp [Except.map] at h
  | ok t =>
    rw [h1] at h
    simp only [] at h
    cases h2 : t.simplify SetOrder.sorted core removeActive with
    | error e => rw [h2] at h; simp [Except.map] at h
    | ok t' =>
      rw [h2] at h
      simp only [Except.map, Except.ok.injEq, Prod.mk.injEq] at h
      exact ⟨t, t', rfl, h2, h.1, h.2.1, h.2.2⟩

theorem simplifyVisible_error {ts : List Tensor} {op : SqOp} {core removeActive : Bool} {e : PyErr} (hm : ∃ t, Term.make ts op 1 = .ok t)
    (h : simplifyVisible ts op core removeActive = .error e) :
    ∃ t, Term.make ts op 1 = .ok t ∧ t.simplify SetOrder.sorted core removeActive = .error e := by
  obtain ⟨t, ht⟩ := hm
  refine ⟨t, ht, ?_⟩
  unfold simplifyVisible at h
  simp only [bind, Except.bind, ht] at h
  cases h2 : t.simplify SetOrder.sorted core removeActive with
  | error e' => rw [h2] at h; simp only [Except.map, Except.error.injEq] at h; rw [h]
  | ok t' => rw [h2] at h; simp [Except.map] at h

theorem toy_physical (orb : Orbitals (Fin 2)) (hv : ∀ o, orb.elem o ≠ .virt) (hs : ∀ a b, orb.spin a = orb.spin b) :
    (toy orb).Physical orb where
  kron _ _ _ := rfl
  dens _ a b h := by
    rcases h with h | h
    · exact absurd h (hv a)
    · exact absurd h (hv b)
  dens_core _ _ _ _ := rfl
  dens_spin _ a b h := absurd (hs a b) h
  hole _ a b := by simp [toy]

theorem toy_activeCumulants (orb : Orbitals (Fin 2)) : (toy orb).ActiveCumulants orb := by
  rintro name u l hu ⟨o, ho, hne⟩
  have : ((u ++ l).all fun o => decide (orb.elem o = .active)) = false := by
    rw [List.all_eq_false]; exact ⟨o, ho, by simpa using hne⟩
  unfold toy
  match u, hu with
  | [], _ => simp only [this]; rfl
  | _ :: _ :: _, _ => simp only [this]; rfl

theorem toy_noActiveAmplitudes (orb : Orbitals (Fin 2)) : (toy orb).NoActiveAmplitudes orb := by
  intro name u l h
  have : ((u ++ l).all fun o => decide (orb.elem o = .active)) = true := by
    rw [List.all_eq_true]; intro o ho; simpa using h o ho
  unfold toy
  simp only [this, if_true]

/-- A counterexample to "`simplify` preserves the value": a valid term, simplified without error, and an interpretation that
respects the meaning of all tensors for which the value changes. -/
def SimplifyChangesValue (ts : List Tensor) (op : SqOp) : Prop :=
  ∃ t t', Term.make ts op 1 = .ok t ∧ t.simplify SetOrder.sorted true true = .ok t' ∧
    ∃ (orb : Orbitals (Fin 2)) (I : Interp (Fin 2) ℚ ℚ), I.Physical orb ∧ I.ActiveCumulants orb ∧ I.NoActiveAmplitudes orb ∧
      I.value orb t'.coeff t'.tensors t'.sqOp ≠ I.value orb 1 ts op

theorem simplifyChangesValue_of {ts ts' : List Tensor} {op op' : SqOp} {c' : ℚ}
    (h : simplifyVisible ts op true true = .ok (c', ts', op')) (orb : Orbitals (Fin 2)) (hv : ∀ o, orb.elem o ≠ .virt)
    (hs : ∀ a b, orb.spin a = orb.spin b) (hne : (toy orb).value orb c' ts' op' ≠ (toy orb).value orb 1 ts op) :
    SimplifyChangesValue ts op := by
  obtain ⟨t, t', h1, h2, rfl, rfl, rfl⟩ := simplifyVisible_ok h
  exact ⟨t, t', h1, h2, orb, toy orb, toy_physical orb hv hs, toy_activeCumulants orb, toy_noActiveAmplitudes orb, hne⟩

/-- Two deltas with a common label: `H^{g0}_{g3} K^{g1}_{g0} K^{g2}_{g1} a^{g3}_{g2}` becomes `H^{g1}_{g3} a^{g3}_{g2}`. -/
theorem C40_violation_chained_deltas : SimplifyChangesValue
    [soTensor .hamiltonian 'H' 0 [lab .g 0] [lab .g 3], soTensor .kronecker 'K' (-1) [lab .g 1] [lab .g 0],
      soTensor .kronecker 'K' (-1) [lab .g 2] [lab .g 1]] (soOp [lab .g 3] [lab .g 2]) :=
  simplifyChangesValue_of (c' := 1) (ts' := [soTensor .hamiltonian 'H' 0 [lab .g 1] [lab .g 3]]) (op' := soOp [lab .g 3] [lab .g 2])
    (by decide +kernel) twoActive (by decide) (by decide) (by decide +kernel)

/-- A delta and a density with a common label: `H^{g0}_{g3} K^{g1}_{g0} L^{g2}_{g1} a^{g3}_{g2}` becomes
`H^{g1}_{g3} L^{h0}_{h1} a^{g3}_{h0}`. -/
theorem C40_violation_delta_density : SimplifyChangesValue
    [soTensor .hamiltonian 'H' 0 [lab .g 0] [lab .g 3], soTensor .kronecker 'K' (-1) [lab .g 1] [lab .g 0],
      soTensor .cumulant 'L' 2 [lab .g 2] [lab .g 1]] (soOp [lab .g 3] [lab .g 2]) :=
  simplifyChangesValue_of (c' := 1)
    (ts' := [soTensor .hamiltonian 'H' 0 [lab .g 1] [lab .g 3], soTensor .cumulant 'L' 2 [lab .h 0] [lab .h 1]])
    (op' := soOp [lab .g 3] [lab .h 0]) (by decide +kernel) twoActive (by decide) (by decide) (by decide +kernel)

/-- A delta with a diagonal label: `H^{g1}_{g1} K^{g0}_{g1} a^{g1}_{g0}` becomes `H^{g2}_{g2} a^{g2}_{g1}`. -/
theorem C40_violation_delta_diagonal : SimplifyChangesValue
    [soTensor .hamiltonian 'H' 0 [lab .g 1] [lab .g 1], soTensor .kronecker 'K' (-1) [lab .g 0] [lab .g 1]]
    (soOp [lab .g 1] [lab .g 0]) :=
  simplifyChangesValue_of (c' := 1) (ts' := [soTensor .hamiltonian 'H' 0 [lab .g 2] [lab .g 2]])
    (op' := soOp [lab .g 2] [lab .g 1]) (by decide +kernel) twoActive (by decide) (by decide) (by decide +kernel)

/-- A two-body density with a core label, which vanishes, is relabelled to active labels. -/
theorem C40_violation_core_cumulant : SimplifyChangesValue
    [soTensor .hamiltonian 'H' 0 [lab .c 0, lab .g 1] [lab .g 2, lab .g 3],
      soTensor .cumulant 'L' 2 [lab .g 2, lab .g 3] [lab .c 0, lab .g 1]] (soOp [] []) :=
  simplifyChangesValue_of (c' := 1)
    (ts' := [soTensor .hamiltonian 'H' 0 [lab .a 2, lab .a 3] [lab .a 0, lab .a 1],
      soTensor .cumulant 'L' 2 [lab .a 0, lab .a 1] [lab .a 2, lab .a 3]])
    (op' := soOp [] []) (by decide +kernel) coreActive (by decide) (by decide) (by decide +kernel)

/-- The hypotheses of `C40_simplify_partial` are met by `H^{g0}_{g1} L^{g1}_{g2} K^{h0}_{g0} T^{h1}_{p0} a^{g2,p0}_{h0,h1}`,
where `simplify` removes the delta and restricts labels. -/
theorem C40_example : ∃ ts op t t', Term.make ts op 1 = .ok t ∧ Separated true ts op ∧
    t.simplify SetOrder.sorted true true = .ok t' ∧ t'.tensors.length = 3 ∧ ts.length = 4 := by
  obtain ⟨t, t', h1, h2, -, h3, -⟩ := simplifyVisible_ok (core := true) (removeActive := true)
    (ts := [soTensor .hamiltonian 'H' 0 [lab .g 0] [lab .g 1], soTensor .cumulant 'L' 2 [lab .g 1] [lab .g 2],
      soTensor .kronecker 'K' (-1) [lab .h 0] [lab .g 0], soTensor .cluster 'T' 1 [lab .h 1] [lab .p 0]])
    (op := soOp [lab .g 2, lab .p 0] [lab .h 0, lab .h 1]) (c' := 1)
    (ts' := [soTensor .hamiltonian 'H' 0 [lab .h 0] [lab .h 2], soTensor .cluster 'T' 1 [lab .h 1] [lab .p 0],
      soTensor .cumulant 'L' 2 [lab .h 2] [lab .h 3]])
    (op' := soOp [lab .h 3, lab .p 0] [lab .h 0, lab .h 1]) (by decide +kernel)
  refine ⟨_, _, t, t', h1, ?_, h2, by rw [h3]; rfl, rfl⟩
  have hk : ∀ x ∈ [soTensor .hamiltonian 'H' 0 [lab .g 0] [lab .g 1], soTensor .cumulant 'L' 2 [lab .g 1] [lab .g 2],
      soTensor .kronecker 'K' (-1) [lab .h 0] [lab .g 0], soTensor .cluster 'T' 1 [lab .h 1] [lab .p 0]],
      ActsAsDelta true x → x = soTensor .kronecker 'K' (-1) [lab .h 0] [lab .g 0] := by
    intro x hx ha
    simp only [List.mem_cons, List.not_mem_nil, or_false] at hx
    rcases hx with rfl | rfl | rfl | rfl
    · rcases ha with ha | ⟨-, ha, -⟩ <;> exact absurd ha (by decide)
    · rcases ha with ha | ⟨-, ha, u, l, hu, hl, hc⟩
      · exact absurd ha (by decide)
      · have hu' : u = lab .g 1 := by simpa [soTensor, Tensor.upper] using hu.symm
        have hl' : l = lab .g 2 := by simpa [soTensor, Tensor.lower] using hl.symm
        subst hu' hl'
        exact absurd hc (by decide)
    · rfl
    · rcases ha with ha | ⟨-, ha, -⟩ <;> exact absurd ha (by decide)
  refine ⟨?_, ?_, ?_⟩
  · have hdec : ([soTensor .hamiltonian 'H' 0 [lab .g 0] [lab .g 1], soTensor .cumulant 'L' 2 [lab .g 1] [lab .g 2],
      soTensor .kronecker 'K' (-1) [lab .h 0] [lab .g 0], soTensor .cluster 'T' 1 [lab .h 1] [lab .p 0]]).Pairwise fun a b =>
        (a.cls = .kronecker ∧ b.cls = .cumulant) ∨ (a.cls = .cumulant ∧ b.cls = .kronecker) ∨ (a.cls = .kronecker ∧ b.cls = .kronecker) →
        ∀ i ∈ a.upper.list ++ a.lower.list, i ∉ b.upper.list ++ b.lower.list := by decide
    refine List.Pairwise.imp_of_mem ?_ hdec
    intro a b ha hb hab hcon
    apply hab
    rcases hcon with ⟨h1, h2⟩ | ⟨h1, h2⟩
    · rw [hk a ha h1] at *
      rcases h2 with h2 | h2
      · exact Or.inr (Or.inr ⟨rfl, h2⟩)
      · exact Or.inl ⟨rfl, h2⟩
    · rw [hk b hb h2] at *
      rcases h1 with h1 | h1
      · exact Or.inr (Or.inr ⟨h1, rfl⟩)
      · exact Or.inr (Or.inl ⟨h1, rfl⟩)
  · intro a ha h1
    rw [hk a ha h1]
    decide
  · decide

/-! ### C41 minimal labels -/

/-- The labels of a term are mapped one-to-one onto labels of the same space, numbered `0, …, n - 1` in each space. -/
theorem C41_minimal (ts : List Tensor) (op : SqOp) (c : ℚ) (t : Term) (ht : Term.make ts op c = .ok t) :
    ∃ f : Index → Index, (∀ i ∈ labelsOf ts op, dictFind t.minimalIndices i = .ok (f i) ∧ (f i).space = i.space) ∧
      (∀ i ∈ labelsOf ts op, ∀ j ∈ labelsOf ts op, f i = f j → i = j) ∧
      ∀ s n, (∃ i ∈ labelsOf ts op, f i = ⟨s, n⟩) ↔ n < ((labelsOf ts op).filter fun i => i.space = s).card := by
  have hw := Term.wf_of_make ht
  obtain ⟨next, hm, hkeys⟩ := minimalIndices_spec t hw.set_sub
  have hl : labelsOf t.tensors t.sqOp = labelsOf ts op := by
    obtain ⟨-, -, -, rfl⟩ := Term.make_ok.1 ht
    exact labelsOf_perm (sortTensors_perm ts) op
  rw [hl] at hkeys
  have hinj : ∀ i ∈ labelsOf ts op, ∀ j ∈ labelsOf ts op, dictFun t.minimalIndices i = dictFun t.minimalIndices j → i = j :=
    fun i hi j hj e => hm.injOn ((hkeys i).2 hi) ((hkeys j).2 hj) e
  have hsp : ∀ i ∈ labelsOf ts op, (dictFun t.minimalIndices i).space = i.space := fun i hi =>
    hm.space _ (dictFind_ok hm.keys ((hkeys i).2 hi)).2
  have hval : ∀ s n, (∃ i ∈ labelsOf ts op, dictFun t.minimalIndices i = ⟨s, n⟩) ↔ n < next s := by
    intro s n
    constructor
    · rintro ⟨i, hi, e⟩
      have := hm.lt _ (dictFind_ok hm.keys ((hkeys i).2 hi)).2
      rw [e] at this
      exact this
    · intro h
      obtain ⟨e, he, he2⟩ := hm.all s n h
      have hk : e.1 ∈ t.minimalIndices.map Prod.fst := List.mem_map.2 ⟨e, he, rfl⟩
      refine ⟨e.1, (hkeys _).1 hk, ?_⟩
      have h2 := (dictFind_ok hm.keys hk).2
      have := List.inj_on_of_nodup_map hm.keys h2 he rfl
      rw [← he2, ← this]
  refine ⟨dictFun t.minimalIndices, fun i hi => ⟨(dictFind_ok hm.keys ((hkeys i).2 hi)).1, hsp i hi⟩, hinj, ?_⟩
  intro s n
  rw [hval]
  have hcard : ((labelsOf ts op).filter fun i => i.space = s).card = next s := by
    rw [← Finset.card_range (next s)]
    refine Finset.card_bij (fun i _ => (dictFun t.minimalIndices i).number) ?_ ?_ ?_
    · intro i hi
      obtain ⟨hi', rfl⟩ := Finset.mem_filter.1 hi
      rw [Finset.mem_range, ← hval]
      exact ⟨i, hi', by rw [← hsp i hi']⟩
    · intro i hi j hj e
      obtain ⟨hi, hs⟩ := Finset.mem_filter.1 hi
      obtain ⟨hj, hs'⟩ := Finset.mem_filter.1 hj
      refine hinj i hi j hj ?_
      have e1 := hsp i hi
      have e2 := hsp j hj
      rw [hs] at e1
      rw [hs'] at e2
      generalize dictFun t.minimalIndices i = a at e e1
      generalize dictFun t.minimalIndices j = b at e e2
      cases a; cases b
      simp only at e e1 e2
      rw [e, e1, e2]
    · intro n hn
      obtain ⟨i, hi, e⟩ := (hval s n).2 (Finset.mem_range.1 hn)
      refine ⟨i, Finset.mem_filter.2 ⟨hi, ?_⟩, by rw [e]⟩
      rw [← hsp i hi, e]
  rw [hcard]

example : ((Term.make [soTensor .hamiltonian 'H' 0 [lab .g 4, lab .c 7] [lab .g 5, lab .c 7]] (soOp [lab .g 5] [lab .g 4]) 1).map
    fun t => t.minimalIndices) = .ok [(lab .g 5, lab .g 0), (lab .g 4, lab .g 1), (lab .c 7, lab .c 0)] := by decide +kernel

/-! ### C42 canonicalize_simple -/

section
variable {O R M : Type} [Fintype O] [DecidableEq O] [Inhabited O] [CommRing R] [Algebra ℚ R] [AddCommGroup M] [Module R M]

/-- The result of `canonicalize_simple` has the value of the simplified term `s`, its labels are numbered from zero in each space,
and index lists are increasing.  Coefficients below `10⁻¹⁵`, which the code takes for zero, are excluded. -/
theorem C42_canonicalize_simple (ord : SetOrder) (ts : List Tensor) (op : SqOp) (c : ℚ) (t s r : Term)
    (ht : Term.make ts op c = .ok t) (core removeActive : Bool) (hs : t.simplify ord core removeActive = .ok s)
    (hr : t.canonicalizeSimple ord core removeActive = .ok r) (hc : c = 0 ∨ 1 / 10 ^ 15 ≤ |c|) :
    (∀ (orb : Orbitals O) (I : Interp O R M), I.Antisymmetric →
      I.value orb r.coeff r.tensors r.sqOp = I.value orb s.coeff s.tensors s.sqOp) ∧
    (∀ i ∈ labelsOf r.tensors r.sqOp, ∀ m < i.number, (⟨i.space, m⟩ : Index) ∈ labelsOf r.tensors r.sqOp) ∧
    (∀ x ∈ r.tensors, (x.upper.ty.isAntisym = true → x.upper.list.Pairwise (· < ·)) ∧ (x.lower.ty.isAntisym = true → x.lower.list.Pairwise (· < ·))) ∧
    (r.sqOp.upper.ty.isAntisym = true → r.sqOp.upper.list.Pairwise (· < ·)) ∧
      (r.sqOp.lower.ty.isAntisym = true → r.sqOp.lower.list.Pairwise (· < ·)) := by
  have hw := Term.wf_of_make ht
  have htc : t.coeff = c := by obtain ⟨-, -, -, rfl⟩ := Term.make_ok.1 ht; rfl
  obtain ⟨hset, hco⟩ := Term.simplify_shape hw.set_sub hs
  unfold Term.canonicalizeSimple at hr
  simp only [bind, Except.bind, hs] at hr
  split_ifs at hr with hv
  · have h0 : s.coeff = 0 := by
      rcases hco with h | h
      · rw [htc] at h
        rcases hc with hc | hc
        · rw [h, hc]
        · simp only [Term.isVoid, decide_eq_true_eq, h] at hv
          exact absurd hv (not_lt.2 hc)
      · exact h
    unfold Term.void at hr
    obtain ⟨-, -, -, rfl⟩ := Term.make_ok.1 hr
    have hu : s.sqOp.void.upper.list = [] ∧ s.sqOp.void.lower.list = [] := ⟨rfl, rfl⟩
    refine ⟨?_, ?_, ?_, ?_, ?_⟩
    · intro orb I _
      rw [h0, I.value_zero, I.value_zero]
    · intro i hi
      simp [mem_labelsOf, labelList, hu.1, hu.2, sortTensors] at hi
    · intro x hx; simp [sortTensors] at hx
    · intro _; simp [hu.1]
    · intro _; simp [hu.2]
  · cases hq : relabelIndices (dictFind s.minimalIndices) s.tensors s.sqOp with
    | error e => rw [hq] at hr; simp at hr
    | ok q =>
      rw [hq] at hr
      obtain ⟨h1, h2, h3, h4⟩ := Term.relabel_spec (O := O) (R := R) (M := M) hset hq hr
      exact ⟨fun orb I hI => h1 I orb hI, h2, h3, h4⟩

/-- The whole of `canonicalize_simple` keeps the value of a term with separated deltas. -/
theorem C40_canonicalize_simple_partial (ord : SetOrder) (hord : ord.Lawful) (ts : List Tensor) (op : SqOp) (c : ℚ) (t r : Term)
    (ht : Term.make ts op c = .ok t) (core removeActive : Bool) (hsep : Separated core ts op)
    (hr : t.canonicalizeSimple ord core removeActive = .ok r) (hc : c = 0 ∨ 1 / 10 ^ 15 ≤ |c|) (orb : Orbitals O) (I : Interp O R M)
    (hph : I.Physical orb) (hac : I.ActiveCumulants orb) (hna : removeActive = true → I.NoActiveAmplitudes orb) (hI : I.Antisymmetric) :
    I.value orb r.coeff r.tensors r.sqOp = I.value orb c ts op := by
  have hr' := hr
  unfold Term.canonicalizeSimple at hr'
  simp only [bind, Except.bind] at hr'
  cases hs : t.simplify ord core removeActive with
  | error e => rw [hs] at hr'; simp at hr'
  | ok s =>
    rw [(C42_canonicalize_simple ord ts op c t s r ht core removeActive hs hr hc).1 orb I hI]
    exact C40_simplify_partial ord hord ts op c t s ht core removeActive hsep hs orb I hph hac hna

end

example : ((Term.make [soTensor .hamiltonian 'H' 0 [lab .g 0, lab .g 1] [lab .g 3, lab .g 2], soTensor .kronecker 'K' (-1) [lab .h 0] [lab .g 0],
      soTensor .cluster 'T' 1 [lab .h 1] [lab .p 0]] (soOp [lab .g 3, lab .g 2, lab .p 0] [lab .h 0, lab .h 1, lab .g 1]) (1 / 4) >>=
    fun t => t.canonicalizeSimple SetOrder.sorted true true).map fun r => (r.coeff, r.tensors, r.sqOp)) =
    .ok (-1 / 4, [soTensor .hamiltonian 'H' 0 [lab .g 2, lab .h 0] [lab .g 0, lab .g 1], soTensor .cluster 'T' 1 [lab .h 1] [lab .p 0]],
      soOp [lab .g 0, lab .g 1, lab .p 0] [lab .g 2, lab .h 0, lab .h 1]) := by decide +kernel

/-! ### C61 simplify on every valid term -/

/-- A valid term on which `simplify` raises `ValueError`. -/
def SimplifyRaises (ts : List Tensor) (op : SqOp) : Prop :=
  ∃ t, Term.make ts op 1 = .ok t ∧ t.simplify SetOrder.sorted true true = .error .valueError

theorem simplifyRaises_of {ts : List Tensor} {op : SqOp} (h0 : ∀ x ∈ ts, x.upper.ty = op.upper.ty)
    (h1 : ∀ i ∈ labelList ts op, i ∉ diagonalOf ts op → (labelList ts op).count i = 2)
    (h2 : ∀ i ∈ diagonalOf ts op, (labelList ts op).count i % 2 = 0) (h : simplifyVisible ts op true true = .error .valueError) :
    SimplifyRaises ts op :=
  simplifyVisible_error ⟨_, Term.make_ok.2 ⟨h0, h1, h2, rfl⟩⟩ h

/-- A bare operator, here `a^{g2}_{g2}`, cannot be simplified. -/
theorem C61_violation_no_tensors : SimplifyRaises [] (soOp [lab .g 2] [lab .g 2]) :=
  simplifyRaises_of (by decide) (by decide +kernel) (by decide +kernel) (by decide +kernel)

/-- Neither can the term with no factor at all. -/
theorem C61_violation_scalar : SimplifyRaises [] (soOp [] []) :=
  simplifyRaises_of (by decide) (by decide +kernel) (by decide +kernel) (by decide +kernel)

/-- A product of deltas, here `K^{g0}_{g1} a^{g1}_{g0}`, cannot be simplified. -/
theorem C61_violation_only_deltas : SimplifyRaises [soTensor .kronecker 'K' (-1) [lab .g 0] [lab .g 1]] (soOp [lab .g 1] [lab .g 0]) :=
  simplifyRaises_of (by decide) (by decide +kernel) (by decide +kernel) (by decide +kernel)

/-- A delta with both labels on one side of a tensor, a term that vanishes, raises as well. -/
theorem C61_violation_vanishing : SimplifyRaises
    [soTensor .hamiltonian 'H' 0 [lab .g 0, lab .g 1] [lab .g 2, lab .g 3], soTensor .kronecker 'K' (-1) [lab .g 0] [lab .g 1]]
    (soOp [lab .g 2] [lab .g 3]) :=
  simplifyRaises_of (by decide) (by decide +kernel) (by decide +kernel) (by decide +kernel)

end Dsrg
