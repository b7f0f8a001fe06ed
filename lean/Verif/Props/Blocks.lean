import Verif.Lemmas.Ddca
import Verif.Spec.Toy

/-!
Property theorems about the expansion of composite labels into blocks (`make_ddca`, `expand_composite_indices`).
-/

namespace Dsrg

section
variable {O R M : Type} [Fintype O] [DecidableEq O] [Inhabited O] [CommRing R] [Algebra ℚ R] [AddCommGroup M] [Module R M]

/-! ### C44 Expanding composite labels preserves the value -/

open Classical in
/-- The terms of `make_ddca` add up to the part of the term in which at most `max_core` of the operator's labels are core orbitals, at most
`max_virt` are virtual orbitals, and (`single_ref`) none is active.  Partial: the operator has no diagonal label. -/
theorem C44_make_ddca_partial (ord : SetOrder) (hord : ord.Lawful) (ts : List Tensor) (op : SqOp) (c : ℚ) (t : Term)
    (ht : Term.make ts op c = .ok t) (hn : (op.upper.list ++ op.lower.list).Nodup) (maxCore maxVirt : Int) (singleRef : Bool) (start : Nat)
    (rows : List Term) (h : t.makeDdca ord maxCore maxVirt singleRef start = .ok rows) (orb : Orbitals O) (I : Interp O R M) :
    (rows.map fun r => I.value orb r.coeff r.tensors r.sqOp).sum = (algebraMap ℚ R t.coeff) •
      ∑ σ ∈ (orb.assignments (labelsOf t.tensors t.sqOp)).filter fun σ =>
          (((op.upper.list ++ op.lower.list).countP fun i => decide (orb.elem (extendTo σ i) = .core) : Nat) : Int) ≤ maxCore ∧
          (((op.upper.list ++ op.lower.list).countP fun i => decide (orb.elem (extendTo σ i) = .virt) : Nat) : Int) ≤ maxVirt ∧
          (singleRef = true → ∀ i ∈ op.upper.list ++ op.lower.list, orb.elem (extendTo σ i) ≠ .active),
        I.pval (extendTo σ) t.tensors • I.opval (extendTo σ) t.sqOp := by
  have hop : t.sqOp = op := by obtain ⟨-, -, -, rfl⟩ := Term.make_ok.1 ht; rfl
  subst hop
  rw [makeDdca_value hord ht hn h orb I, Finset.sum_filter]
  congr 1
  refine Finset.sum_congr rfl fun σ _ => if_congr ?_ rfl rfl
  exact ddcaKeeps_elem orb (extendTo σ) _ maxCore maxVirt singleRef

/-- `expand_composite_indices(False)`: the terms add up to the original term.  Partial: the operator has no diagonal label. -/
theorem C44_expand_partial (ord : SetOrder) (hord : ord.Lawful) (ts : List Tensor) (op : SqOp) (c : ℚ) (t : Term)
    (ht : Term.make ts op c = .ok t) (hn : (op.upper.list ++ op.lower.list).Nodup) (start : Nat)
    (rows : List Term) (h : t.expandCompositeIndices ord false start = .ok rows) (orb : Orbitals O) (I : Interp O R M) :
    (rows.map fun r => I.value orb r.coeff r.tensors r.sqOp).sum = I.value orb t.coeff t.tensors t.sqOp := by
  classical
  have hop : t.sqOp = op := by obtain ⟨-, -, -, rfl⟩ := Term.make_ok.1 ht; rfl
  have hsz : t.sqOp.size = (op.upper.list ++ op.lower.list).length := by rw [hop]; simp [IndicesPair.size, IndicesPair.nUpper, IndicesPair.nLower, Indices.size]
  rw [C44_make_ddca_partial ord hord ts op c t ht hn _ _ _ start rows h orb I, Finset.filter_true_of_mem]
  · rfl
  · intro σ _
    rw [hsz]
    exact ⟨by exact_mod_cast List.countP_le_length, by exact_mod_cast List.countP_le_length, by simp⟩

open Classical in
/-- `expand_composite_indices(True)`: the terms add up to the part of the original term in which the operator's labels are core and virtual
orbitals.  Partial: the operator has no diagonal label. -/
theorem C44_expand_single_ref_partial (ord : SetOrder) (hord : ord.Lawful) (ts : List Tensor) (op : SqOp) (c : ℚ) (t : Term)
    (ht : Term.make ts op c = .ok t) (hn : (op.upper.list ++ op.lower.list).Nodup) (start : Nat)
    (rows : List Term) (h : t.expandCompositeIndices ord true start = .ok rows) (orb : Orbitals O) (I : Interp O R M) :
    (rows.map fun r => I.value orb r.coeff r.tensors r.sqOp).sum = (algebraMap ℚ R t.coeff) •
      ∑ σ ∈ (orb.assignments (labelsOf t.tensors t.sqOp)).filter fun σ => ∀ i ∈ op.upper.list ++ op.lower.list, orb.elem (extendTo σ i) ≠ .active,
        I.pval (extendTo σ) t.tensors • I.opval (extendTo σ) t.sqOp := by
  have hop : t.sqOp = op := by obtain ⟨-, -, -, rfl⟩ := Term.make_ok.1 ht; rfl
  have hsz : t.sqOp.size = (op.upper.list ++ op.lower.list).length := by rw [hop]; simp [IndicesPair.size, IndicesPair.nUpper, IndicesPair.nLower, Indices.size]
  rw [C44_make_ddca_partial ord hord ts op c t ht hn _ _ _ start rows h orb I]
  congr 2
  refine Finset.filter_congr fun σ _ => ?_
  rw [hsz]
  constructor
  · rintro ⟨-, -, h⟩; exact h rfl
  · intro h
    exact ⟨by exact_mod_cast List.countP_le_length, by exact_mod_cast List.countP_le_length, fun _ => h⟩

end

/-- The blocks: every choice of an elementary space for each operator label that passes the limits occurs exactly once, and all labels are
numbered from `start`.  Partial: the operator has no diagonal label. -/
theorem C44_blocks_partial (ord : SetOrder) (hord : ord.Lawful) (ts : List Tensor) (op : SqOp) (c : ℚ) (t : Term)
    (ht : Term.make ts op c = .ok t) (hn : (op.upper.list ++ op.lower.list).Nodup) (maxCore maxVirt : Int) (singleRef : Bool) (start : Nat)
    (rows : List Term) (h : t.makeDdca ord maxCore maxVirt singleRef start = .ok rows) :
    (rows.map fun r => (r.sqOp.upper.list ++ r.sqOp.lower.list).map Index.space).Nodup ∧
    (∀ sp, sp ∈ rows.map (fun r => (r.sqOp.upper.list ++ r.sqOp.lower.list).map Index.space) ↔
      List.Forall₂ (fun s i => s.beta = i.space.beta ∧ ∃ e : Elem, i.space.kind.Denotes e ∧ s.kind = e.kind) sp (op.upper.list ++ op.lower.list) ∧
        ((sp.countP fun s => decide (s.kind = .c) : Nat) : Int) ≤ maxCore ∧ ((sp.countP fun s => decide (s.kind = .v) : Nat) : Int) ≤ maxVirt ∧
        (singleRef = true → ∀ s ∈ sp, s.kind ≠ .a)) ∧
    ∀ r ∈ rows, r.coeff = c ∧ ∀ i ∈ labelsOf r.tensors r.sqOp, start ≤ i.number := by
  have hop : t.sqOp = op := by obtain ⟨-, -, -, rfl⟩ := Term.make_ok.1 ht; rfl
  have hcoeff : t.coeff = c := by obtain ⟨-, -, -, rfl⟩ := Term.make_ok.1 ht; rfl
  have hS : t.indicesSet = labelsOf t.tensors t.sqOp := by
    obtain ⟨-, -, -, rfl⟩ := Term.make_ok.1 ht
    exact (labelsOf_perm (sortTensors_perm ts) op).symm
  subst hop
  have hrows := makeDdca_rows h
  have hrow : ∀ sp ∈ pyProduct (t.sqOp.indices.map fun i => ord.spaces i.space.relation), ∀ r : Term, (do
      let ρ := dictFind (ddcaMap (ord.indices t.indicesSet) t.sqOp.indices sp start)
      let op ← replaceSqOp ρ t.sqOp
      let ts ← replaceTensors ρ t.tensors
      Term.make ts op t.coeff) = .ok r → (r.sqOp.upper.list ++ r.sqOp.lower.list).map Index.space = sp ∧ r.coeff = c ∧
        ∀ i ∈ labelsOf r.tensors r.sqOp, start ≤ i.number := by
    intro sp hsp r hr
    have hlen : t.sqOp.indices.length = sp.length := by rw [(mem_pyProduct.1 hsp).length_eq, List.length_map]
    obtain ⟨-, k2, -, k4, -⟩ := ddcaMap_spec (S := labelsOf t.tensors t.sqOp) (order := ord.indices t.indicesSet) (labels := t.sqOp.indices) start
      (fun i => by rw [hord.mem_indices, hS]) hn hlen
    obtain ⟨e1, e2, e3⟩ := ddcaRow_ok (realizes_dictFind _) hr
    refine ⟨?_, by rw [e1, hcoeff], ?_⟩
    · rw [e2]
      refine Eq.trans ?_ k2
      simp only [IndicesPair.relabel, IndicesPair.indices, ← List.map_append, List.map_map]
      rfl
    · intro i hi
      rw [e2, labelsOf_perm e3, labelsOf_relabel] at hi
      obtain ⟨j, hj, rfl⟩ := Finset.mem_image.1 hi
      exact k4 j hj
  have hmap : ∀ (bs : List (List Space)) (rs : List Term), (∀ sp ∈ bs, sp ∈ pyProduct (t.sqOp.indices.map fun i => ord.spaces i.space.relation)) →
      List.Forall₂ (fun sp r => (do
      let ρ := dictFind (ddcaMap (ord.indices t.indicesSet) t.sqOp.indices sp start)
      let op ← replaceSqOp ρ t.sqOp
      let ts ← replaceTensors ρ t.tensors
      Term.make ts op t.coeff) = .ok r) bs rs → rs.map (fun r => (r.sqOp.upper.list ++ r.sqOp.lower.list).map Index.space) = bs ∧
        ∀ r ∈ rs, r.coeff = c ∧ ∀ i ∈ labelsOf r.tensors r.sqOp, start ≤ i.number := by
    intro bs rs hb hf
    induction hf with
    | nil => simp
    | cons ha _ ih =>
      obtain ⟨i1, i2⟩ := ih fun sp hsp => hb sp (List.mem_cons_of_mem _ hsp)
      obtain ⟨j1, j2⟩ := hrow _ (hb _ (by simp)) _ ha
      refine ⟨by rw [List.map_cons, i1, j1], ?_⟩
      intro r hr
      rcases List.mem_cons.1 hr with rfl | hr
      · exact j2
      · exact i2 r hr
  obtain ⟨m1, m2⟩ := hmap _ _ (fun sp hsp => (List.mem_filter.1 hsp).1) hrows
  refine ⟨?_, ?_, m2⟩
  · rw [m1]
    refine List.Nodup.filter _ (nodup_pyProduct ?_)
    intro p hp
    obtain ⟨i, -, rfl⟩ := List.mem_map.1 hp
    exact hord.spaces_nodup _
  · intro sp
    rw [m1, List.mem_filter, mem_pyProduct, List.forall₂_map_right_iff]
    simp only [hord.mem_spaces, mem_relation_iff, ddcaKeeps, decide_eq_true_eq, List.countP_eq_zero]
    rfl

/-- For a term made of constructed factors, in which no cluster amplitude has a general label, the expansion succeeds.  Partial: the operator
has no diagonal label. -/
theorem C44_total_partial (ord : SetOrder) (hord : ord.Lawful) (ts : List Tensor) (op : SqOp) (c : ℚ) (t : Term)
    (ht : Term.make ts op c = .ok t) (hn : (op.upper.list ++ op.lower.list).Nodup) (hop : IndicesPair.Constructed op) (hne : ts ≠ [])
    (hts : ∀ x ∈ ts, x.Constructed) (hcl : ∀ x ∈ ts, x.cls = .cluster → ∀ i ∈ x.upper.list ++ x.lower.list, i.space.kind ≠ .g)
    (maxCore maxVirt : Int) (singleRef : Bool) (start : Nat) : ∃ rows, t.makeDdca ord maxCore maxVirt singleRef start = .ok rows := by
  have h1 := Term.make_ok.1 ht
  have hp := sortTensors_perm ts
  obtain ⟨-, -, -, rfl⟩ := h1
  refine makeDdca_total hord ht hn hop ?_ (fun x hx => hts x (hp.mem_iff.1 hx)) (fun x hx => hcl x (hp.mem_iff.1 hx)) _ _ _ _
  intro e
  apply hne
  have := hp.length_eq
  rw [show sortTensors ts = [] from e] at this
  exact List.length_eq_zero_iff.1 this.symm

/-- A one-body operator with two general labels. -/
def exGeneral : List Tensor := [soTensor .hamiltonian 'H' 0 [lab .g 0] [lab .g 1]]

/-- The hypotheses are met: the term is constructed and expands into nine blocks. -/
theorem C44_example : ∃ t rows, Term.make exGeneral (soOp [lab .g 0] [lab .g 1]) 1 = .ok t ∧
    ([lab .g 0] ++ [lab .g 1]).Nodup ∧ IndicesPair.Constructed (soOp [lab .g 0] [lab .g 1]) ∧ (∀ x ∈ exGeneral, x.Constructed) ∧
    t.expandCompositeIndices SetOrder.sorted false 0 = .ok rows ∧ rows.length = 9 := by
  obtain ⟨rows, h1, h2⟩ := exists_of_map (x := (Term.make exGeneral (soOp [lab .g 0] [lab .g 1]) 1).bind fun t =>
    t.expandCompositeIndices SetOrder.sorted false 0) (f := List.length) (b := 9) (by decide +kernel)
  cases h : Term.make exGeneral (soOp [lab .g 0] [lab .g 1]) 1 with
  | error e => rw [h] at h1; cases h1
  | ok t =>
    rw [h] at h1
    refine ⟨t, rows, rfl, by decide, ⟨rfl, rfl, rfl⟩, ?_, h1, h2⟩
    intro x hx
    rw [List.mem_singleton.1 hx]
    exact ⟨rfl, rfl, rfl⟩

/-- A one-body operator with a diagonal label. -/
def exDiagonal : List Tensor := [soTensor .hamiltonian 'H' 0 [lab .g 0] [lab .g 0]]

/-- For an operator with a diagonal label the terms do not add up to the original term: every block is returned once for each choice of
the first of the two equal labels. -/
theorem C44_violation_diagonal : ∃ t rows, Term.make exDiagonal (soOp [lab .g 0] [lab .g 0]) 1 = .ok t ∧
    t.expandCompositeIndices SetOrder.sorted false 0 = .ok rows ∧ rows.length = 9 ∧
    (rows.map fun r => (toy twoActive).value twoActive r.coeff r.tensors r.sqOp).sum = 6 ∧
    (toy twoActive).value twoActive t.coeff t.tensors t.sqOp = 2 := by
  obtain ⟨p, h1, h2⟩ := exists_of_map (x := (Term.make exDiagonal (soOp [lab .g 0] [lab .g 0]) 1).bind fun t =>
    (t.expandCompositeIndices SetOrder.sorted false 0).map fun rows => (t, rows))
    (f := fun p => (p.2.length, (p.2.map fun r => (toy twoActive).value twoActive r.coeff r.tensors r.sqOp).sum,
      (toy twoActive).value twoActive p.1.coeff p.1.tensors p.1.sqOp)) (b := (9, 6, 2)) (by decide +kernel)
  obtain ⟨t, rows⟩ := p
  cases h : Term.make exDiagonal (soOp [lab .g 0] [lab .g 0]) 1 with
  | error e => rw [h] at h1; cases h1
  | ok t' =>
    rw [h] at h1
    cases h3 : t'.expandCompositeIndices SetOrder.sorted false 0 with
    | error e => simp [Except.bind, Except.map, h3] at h1
    | ok rows' =>
      simp only [Except.bind, Except.map, h3, Except.ok.injEq, Prod.mk.injEq] at h1
      obtain ⟨rfl, rfl⟩ := h1
      simp only [Prod.mk.injEq] at h2
      exact ⟨t', rows', rfl, h3, h2.1, h2.2.1, h2.2.2⟩

end Dsrg
