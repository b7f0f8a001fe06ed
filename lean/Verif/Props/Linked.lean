import Verif.Lemmas.Linked
import Verif.Props.Total

/-!
C108: the terms of commutators are linked.
-/

namespace Dsrg

theorem LibraryTerm.joined {m : Machine} (hcanon : CanonContract m.canon) (hord : m.ord.Lawful) (hcpu : 1 ≤ m.cpus) {t : Term}
    (h : LibraryTerm m t) (hl : Linked t.tensors) : Joined t.tensors := hl.joined (h.nice hcanon hord hcpu).2.labels

/-- C108: in connected mode, the terms that `contract_terms` returns for a product of linked terms with operators are linked. -/
theorem C108_contract_terms (m : Machine) (hcanon : CanonContract m.canon) (hord : m.ord.Lawful) (hcpu : 1 ≤ m.cpus) (o : Options)
    (hf : o.forCommutator = true) (terms : List Term) (h : ∀ t ∈ terms, LibraryTerm m t ∧ Linked t.tensors ∧ t.sqOp.size ≠ 0)
    (hd : terms.Pairwise DisjointLabels) (scale : ℚ) (out : List Term) (hr : ContractRun m o terms scale out) : ∀ t ∈ out, Linked t.tensors :=
  fun t ht => (ContractRun.joined hcanon hord hf (fun t ht => ((h t ht).1.nice hcanon hord hcpu).1) hd
    (fun t ht => (h t ht).1.joined hcanon hord hcpu (h t ht).2.1) (fun t ht => (h t ht).2.2) hr t ht).linked

/-- `single_commutator` of linked terms, with or without operators. -/
theorem C108_single_commutator (m : Machine) (hcanon : CanonContract m.canon) (hord : m.ord.Lawful) (hcpu : 1 ≤ m.cpus) (o : Options)
    (hf : o.forCommutator = true) (a b : Term) (ha : LibraryTerm m a) (hb : LibraryTerm m b) (hla : Linked a.tensors) (hlb : Linked b.tensors)
    (hd : DisjointLabels a b) (scale : ℚ) (out : List Term) (hr : CommutatorRun m o a b scale out) : ∀ t ∈ out, Linked t.tensors :=
  fun t ht => (CommutatorRun.joined hcanon hord hf (ha.nice hcanon hord hcpu).1 (hb.nice hcanon hord hcpu).1 (ha.joined hcanon hord hcpu hla)
    (hb.joined hcanon hord hcpu hlb) hd hr t ht).linked

/-- `linear_commutator`. -/
theorem C108_linear_commutator (m : Machine) (hcanon : CanonContract m.canon) (hord : m.ord.Lawful) (hcpu : 1 ≤ m.cpus) (o : Options)
    (hf : o.forCommutator = true) (lefts rights : List Term) (hl : ∀ t ∈ lefts, LibraryTerm m t ∧ Linked t.tensors)
    (hr : ∀ t ∈ rights, LibraryTerm m t ∧ Linked t.tensors) (hd : ∀ a ∈ lefts, ∀ b ∈ rights, DisjointLabels a b) (scale : ℚ) (out : List Term)
    (h : LinearCommutatorRun m o lefts rights scale out) : ∀ t ∈ out, Linked t.tensors :=
  fun t ht => (LinearCommutatorRun.joined hcanon hord hf
    (fun t ht => ⟨((hl t ht).1.nice hcanon hord hcpu).1, (hl t ht).1.joined hcanon hord hcpu (hl t ht).2⟩)
    (fun t ht => ⟨((hr t ht).1.nice hcanon hord hcpu).1, (hr t ht).1.joined hcanon hord hcpu (hr t ht).2⟩) hd h t ht).linked

/-- `linear_commutator_amp`, for amplitudes whose labels are not in the given terms. -/
theorem C108_linear_commutator_amp (m : Machine) (hcanon : CanonContract m.canon) (hord : m.ord.Lawful) (hcpu : 1 ≤ m.cpus) (o : Options)
    (hf : o.forCommutator = true) (lefts : List Term) (hl : ∀ t ∈ lefts, LibraryTerm m t ∧ Linked t.tensors) (levels : List Nat)
    (hk : ∀ k ∈ levels, 1 ≤ k) (start : Nat) (hstart : ∀ t ∈ lefts, ∀ i ∈ labelsOf t.tensors t.sqOp, i.number < start)
    (unitary singleRef : Bool) (scale : ℚ) (out : List Term)
    (h : LinearCommutatorAmpRun m o lefts levels start unitary singleRef scale out) : ∀ t ∈ out, Linked t.tensors := by
  obtain ⟨amps, ha, h⟩ := h
  have hj := clusterOperators_joined hk ha
  have hg : ∀ t ∈ amps, GoodTerm t ∧ ∀ i ∈ labelsOf t.tensors t.sqOp, start ≤ i.number := by
    have key : ∀ {excitation : Bool} {c : ℚ} {l : List Term}, (levels.mapM fun k =>
        clusterOperator k start excitation ['T'] c (holeSpace singleRef) (particleSpace singleRef) .spinOrbital) = .ok l →
        ∀ t ∈ l, GoodTerm t ∧ ∀ i ∈ labelsOf t.tensors t.sqOp, start ≤ i.number := by
      intro excitation c l hl t ht
      obtain ⟨k, -, e⟩ := forall₂_mem_right (forall₂_of_mapM hl) ht
      obtain ⟨g, -, -, -, -, hn⟩ := cluster_good e
      exact ⟨g, fun i hi => (hn i hi).2.1⟩
    unfold clusterOperators at ha
    obtain ⟨a, ha', ha⟩ := bind_ok ha
    split_ifs at ha
    · obtain ⟨b, hb, ha⟩ := bind_ok ha
      injection ha with ha
      subst ha
      intro t ht
      rcases List.mem_append.1 ht with ht | ht
      · exact key ha' t ht
      · exact key hb t ht
    · injection ha with ha
      subst ha
      exact key ha'
  exact fun t ht => (LinearCommutatorRun.joined hcanon hord hf
    (fun t ht => ⟨((hl t ht).1.nice hcanon hord hcpu).1, (hl t ht).1.joined hcanon hord hcpu (hl t ht).2⟩)
    (fun t ht => ⟨(hg t ht).1, hj t ht⟩) (fun a ha b hb => disjointLabels_of_numbers (hstart a ha) (hg b hb).2) h t ht).linked

/-- `recursive_single_commutator`, every level. -/
theorem C108_recursive_single_commutator (m : Machine) (hcanon : CanonContract m.canon) (hord : m.ord.Lawful) (hcpu : 1 ≤ m.cpus) (o : Options)
    (hf : o.forCommutator = true) (first : Term) (levels : List (Term × Int × Int × Int)) (h0 : LibraryTerm m first) (hl0 : Linked first.tensors)
    (hl : ∀ l ∈ levels, LibraryTerm m l.1 ∧ Linked l.1.tensors)
    (N : Nat) (hN : (labelsOf first.tensors first.sqOp).card ≤ N ∧ ∀ i ∈ labelsOf first.tensors first.sqOp, i.number < N)
    (hnum : ∀ pre l post, levels = pre ++ l :: post → ∀ i ∈ labelsOf l.1.tensors l.1.sqOp,
      N + (pre.map fun l => (labelsOf l.1.tensors l.1.sqOp).card).sum ≤ i.number)
    (outs : List (List Term)) (h : RecursiveRun m o [first] levels outs) : ∀ out ∈ outs, ∀ t ∈ out, Linked t.tensors :=
  fun out ho t ht => (RecursiveRun.joined hcanon hord hf (N := N) (by
      intro t ht
      obtain rfl : t = first := by simpa using ht
      exact ⟨(h0.nice hcanon hord hcpu).1, hN.1, hN.2⟩) (by simpa using h0.joined hcanon hord hcpu hl0)
    (fun l hl' => ⟨((hl l hl').1.nice hcanon hord hcpu).1, (hl l hl').1.joined hcanon hord hcpu (hl l hl').2⟩) hnum h out ho t ht).linked

/-- `bch_cc_rsc`, every level. -/
theorem C108_bch_cc_rsc (m : Machine) (hcanon : CanonContract m.canon) (hord : m.ord.Lawful) (o : Options)
    (hf : o.forCommutator = true) (levels : List Nat) (hk : ∀ k ∈ levels, 1 ≤ k) (unitary singleRef : Bool) (limits : List (Int × Int × Int))
    (calls : List (List (Term × Term))) (outs : List (List Term)) (h : BchRun m o levels unitary singleRef limits calls outs) :
    ∀ out ∈ outs, ∀ t ∈ out, Linked t.tensors := by
  obtain ⟨maxLevel, start, rest, h1, h2, h3, rfl⟩ := h
  have hs := bchStart_joined hord h2
  intro out ho t ht
  rcases List.mem_cons.1 ho with rfl | ho
  · exact (hs t ht).linked
  · exact (BchLevels.joined hcanon hord hf hk (fun k hk => (List.max?_eq_some_iff.1 h1).2 k hk) (by simpa using (bchStart_good hord h2).1) hs h3
      out ho t ht).linked

/-- `nested_commutator_cc`, whatever the order in which SymPy gives the products. -/
theorem C108_nested_commutator_cc (m : Machine) (hcanon : CanonContract m.canon) (hord : m.ord.Lawful) (o : Options)
    (hf : o.forCommutator = true) (level : Nat) (levels : List Nat) (hk : ∀ k ∈ levels, 1 ≤ k) (unitary singleRef : Bool)
    (expansion : List (ℤ × List OpName)) (calls : List (List Term × ℚ)) (out : List Term)
    (h : NestedRun m o level levels unitary singleRef expansion calls out) : ∀ t ∈ out, Linked t.tensors :=
  fun t ht => (NestedRun.joined hcanon hord hf hk h t ht).linked

/-- Two factors without a common label are not linked: the definition excludes products. -/
theorem not_linked {x y : Tensor} (h : ∀ i, i ∈ x.upper.list ∨ i ∈ x.lower.list → ¬ (i ∈ y.upper.list ∨ i ∈ y.lower.list)) : ¬ Linked [x, y] := by
  intro hl
  obtain ⟨a, ha, b, hb, i, hi, hj⟩ := hl [x] [y] (List.Perm.refl _) (by simp) (by simp)
  obtain rfl : a = x := by simpa using ha
  obtain rfl : b = y := by simpa using hb
  exact h i hi hj

/-- The hypotheses of C108 can be met: the two-body Hamiltonian and a two-body amplitude are linked terms without common labels and the
commutators have results; without connection the product of both would not be linked. -/
theorem C108_example : ∃ (h t : Term) (o : Options), LibraryTerm exMachine h ∧ LibraryTerm exMachine t ∧ Linked h.tensors ∧ Linked t.tensors ∧
    h.sqOp.size ≠ 0 ∧ t.sqOp.size ≠ 0 ∧ DisjointLabels h t ∧ ¬ Linked (h.tensors ++ t.tensors) ∧ o.forCommutator = true ∧
    (∃ out, ContractRun exMachine o [h, t] 1 out) ∧ (∃ out, CommutatorRun exMachine o h t 1 out) ∧
    (∃ calls outs, BchRun exMachine o [1, 2] true false [(2, 0, 6), (2, 0, 6)] calls outs) ∧
    (∃ expansion calls out, NestedRun exMachine o 2 [1, 2] true false expansion calls out) := by
  obtain ⟨c, l, p⟩ := exMachine_ok
  obtain ⟨h, x, hh, hx, -⟩ := C38_hamiltonian 2 0 .spinOrbital
  obtain ⟨t, ht⟩ := cluster_total 2 4 true 1 false
  have a := LibraryTerm.hamiltonian (m := exMachine) 2 0 h (by decide) hh
  have b := LibraryTerm.amplitude (m := exMachine) 2 4 true 1 false t (by decide) ht
  have gh := hamiltonian_good_from hh
  have gt := cluster_good ht
  have hd : DisjointLabels h t := disjointLabels_of_numbers (N := 4) (fun i hi => by have := gh.2.2.2.2.2 i hi; omega) (fun i hi => by have := gt.2.2.2.2.2 i hi; omega)
  obtain ⟨jh, nh⟩ := hamiltonian_joined (by decide) hh
  obtain ⟨jt, nt⟩ := cluster_joined (by decide) ht
  have hkeep := (cluster_live (by decide) ht).keep
  let o : Options := { maxCu := 2, maxOpen := 6, minOpen := 0, forCommutator := true, expandHole := true, nProcess := 2, hermitian := true }
  refine ⟨h, t, o, a, b, jh.linked, jt.linked, nh, nt, hd, ?_, rfl,
    (C76_contract_terms _ c l p o (by decide) [h, t] (by simp) (by simp [a, b]) (by simpa using hd) 1).2,
    (C76_single_commutator _ c l p o (by decide) h t a b hd 1).2,
    (C76_bch_cc_rsc _ c l p o (by decide) [1, 2] (by simp) (by simp) true false _).2, ?_⟩
  · intro hl
    obtain ⟨y, hy, -⟩ := hkeep
    obtain ⟨u, hu, v, hv, i, hi, hj⟩ := hl h.tensors t.tensors (List.Perm.refl _) (by simp [hx]) (List.ne_nil_of_mem hy)
    exact Finset.disjoint_left.1 hd (mem_labelsOf.2 (mem_labelList.2 (Or.inr ⟨u, hu, mem_pair.2 hi⟩)))
      (mem_labelsOf.2 (mem_labelList.2 (Or.inr ⟨v, hv, mem_pair.2 hj⟩)))
  · obtain ⟨-, ⟨e, he⟩, hrun⟩ := C76_nested_commutator_cc _ c l p o (by decide) 2 [1, 2] (by simp) true false
    exact ⟨e, hrun e he⟩

end Dsrg
