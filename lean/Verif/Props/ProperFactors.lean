import Verif.Lemmas.ProperFactors
import Verif.Props.Total

/-!
C109: the factors of the results of contractions are those of the product, with densities.
-/

namespace Dsrg

/-- C109: apart from densities and deltas, every term that `contract_terms` returns has exactly the factors of the product: the same classes,
names and numbers of labels, each as often. -/
theorem C109_contract_terms (m : Machine) (hcanon : CanonContract m.canon) (hord : m.ord.Lawful) (hcpu : 1 ≤ m.cpus) (o : Options)
    (hn : 1 ≤ o.nProcess) (terms : List Term) (hne : terms ≠ []) (h : ∀ t ∈ terms, LibraryTerm m t) (hd : terms.Pairwise DisjointLabels)
    (scale : ℚ) (out : List Term) (hr : ContractRun m o terms scale out) :
    ∀ t ∈ out, properFactors t.tensors = (terms.map fun t => properFactors t.tensors).sum :=
  ContractRun.properFactors hcanon hord hcpu hn hne (fun t ht => (h t ht).nice hcanon hord hcpu) hd hr

/-- `single_commutator`. -/
theorem C109_single_commutator (m : Machine) (hcanon : CanonContract m.canon) (hord : m.ord.Lawful) (hcpu : 1 ≤ m.cpus) (o : Options)
    (hn : 1 ≤ o.nProcess) (a b : Term) (ha : LibraryTerm m a) (hb : LibraryTerm m b) (hd : DisjointLabels a b) (scale : ℚ) (out : List Term)
    (hr : CommutatorRun m o a b scale out) : ∀ t ∈ out, properFactors t.tensors = properFactors a.tensors + properFactors b.tensors :=
  CommutatorRun.properFactors hcanon hord hcpu hn (ha.nice hcanon hord hcpu) (hb.nice hcanon hord hcpu) hd hr

/-- `linear_commutator`: those of one term of each list. -/
theorem C109_linear_commutator (m : Machine) (hcanon : CanonContract m.canon) (hord : m.ord.Lawful) (hcpu : 1 ≤ m.cpus) (o : Options)
    (hn : 1 ≤ o.nProcess) (lefts rights : List Term) (hl : ∀ t ∈ lefts, LibraryTerm m t) (hr : ∀ t ∈ rights, LibraryTerm m t)
    (hd : ∀ a ∈ lefts, ∀ b ∈ rights, DisjointLabels a b) (scale : ℚ) (out : List Term) (h : LinearCommutatorRun m o lefts rights scale out) :
    ∀ t ∈ out, ∃ a ∈ lefts, ∃ b ∈ rights, properFactors t.tensors = properFactors a.tensors + properFactors b.tensors := by
  obtain ⟨all, h1, h2⟩ := h
  refine combine_all (P := fun t => ∃ a ∈ lefts, ∃ b ∈ rights, properFactors t.tensors = properFactors a.tensors + properFactors b.tensors)
    (fun _ _ h => h) ?_ h2
  intro t ht
  obtain ⟨p, hp, e⟩ := CommutatorsRun.properFactors hcanon hord hcpu (o := { o with expandHole := true }) hn (by
    intro p hp
    obtain ⟨l, hl', hp⟩ := List.mem_flatMap.1 hp
    obtain ⟨r, hr', rfl⟩ := List.mem_map.1 hp
    exact ⟨(hl l hl').nice hcanon hord hcpu, (hr r hr').nice hcanon hord hcpu, hd l hl' r hr'⟩) h1 t ht
  obtain ⟨l, hl', hp⟩ := List.mem_flatMap.1 hp
  obtain ⟨r, hr', rfl⟩ := List.mem_map.1 hp
  exact ⟨l, hl', r, hr', e⟩

/-- `recursive_single_commutator`: level `j` has the factors of the first term and of the next `j + 1` terms. -/
theorem C109_recursive_single_commutator (m : Machine) (hcanon : CanonContract m.canon) (hord : m.ord.Lawful) (hcpu : 1 ≤ m.cpus) (o : Options)
    (hn : 1 ≤ o.nProcess) (first : Term) (levels : List (Term × Int × Int × Int)) (h0 : LibraryTerm m first)
    (hl : ∀ l ∈ levels, LibraryTerm m l.1)
    (N : Nat) (hN : (labelsOf first.tensors first.sqOp).card ≤ N ∧ ∀ i ∈ labelsOf first.tensors first.sqOp, i.number < N)
    (hnum : ∀ pre l post, levels = pre ++ l :: post → ∀ i ∈ labelsOf l.1.tensors l.1.sqOp,
      N + (pre.map fun l => (labelsOf l.1.tensors l.1.sqOp).card).sum ≤ i.number)
    (outs : List (List Term)) (h : RecursiveRun m o [first] levels outs) : ∀ j out, outs[j]? = some out → ∀ t ∈ out,
      properFactors t.tensors = properFactors first.tensors + ((levels.take (j + 1)).map fun l => properFactors l.1.tensors).sum :=
  RecursiveRun.properFactors hcanon hord hcpu hn (N := N) (by
      intro t ht
      obtain rfl : t = first := by simpa using ht
      exact ⟨(h0.nice hcanon hord hcpu).1, hN.1, hN.2⟩) (by simpa using h0.nice hcanon hord hcpu) (by simp)
    (fun l hl' => (hl l hl').nice hcanon hord hcpu) hnum h

/-- `bch_cc_rsc`: every term of level `n` has one Hamiltonian tensor and `n` amplitudes. -/
theorem C109_bch_cc_rsc (m : Machine) (hcanon : CanonContract m.canon) (hord : m.ord.Lawful) (hcpu : 1 ≤ m.cpus) (o : Options)
    (hn : 1 ≤ o.nProcess) (levels : List Nat) (hk : ∀ k ∈ levels, 1 ≤ k) (unitary singleRef : Bool) (limits : List (Int × Int × Int))
    (calls : List (List (Term × Term))) (outs : List (List Term)) (h : BchRun m o levels unitary singleRef limits calls outs) :
    ∀ n out, outs[n]? = some out → ∀ t ∈ out, OfOrder 1 n t.tensors := by
  obtain ⟨maxLevel, start, rest, h1, h2, h3, rfl⟩ := h
  have hs := ofOrder_bchStart hord h2
  intro n out ho
  cases n with
  | zero =>
    obtain rfl : start = out := by simpa using ho
    exact hs
  | succ n =>
    have := BchLevels.ofOrder hcanon hord hcpu hn hk (fun k hk => (List.max?_eq_some_iff.1 h1).2 k hk) (by simpa using (bchStart_good hord h2).1)
      (bchStart_nice hord h2) hs h3 n out (by simpa using ho)
    rwa [show 0 + 1 + n = n + 1 by omega] at this

/-- `nested_commutator_cc`: every term of the nested commutator of level `n` has one Hamiltonian tensor and `n` amplitudes, whatever the order
in which SymPy gives the products.  Level 0 is computed as level 1. -/
theorem C109_nested_commutator_cc (m : Machine) (hcanon : CanonContract m.canon) (hord : m.ord.Lawful) (hcpu : 1 ≤ m.cpus) (o : Options)
    (hn : 1 ≤ o.nProcess) (level : Nat) (levels : List Nat) (hk : ∀ k ∈ levels, 1 ≤ k) (unitary singleRef : Bool)
    (expansion : List (ℤ × List OpName)) (calls : List (List Term × ℚ)) (out : List Term)
    (h : NestedRun m o level levels unitary singleRef expansion calls out) : ∀ t ∈ out, OfOrder 1 (max 1 level) t.tensors := by
  obtain ⟨all, he, hl, hc⟩ := h
  refine ofOrder_combine (NestedLoop.ofOrder hcanon hord hcpu hn ?_ hl) hc
  intro p hp
  obtain ⟨h1, h2, h3⟩ := nestedWords_mem (mem_words_of_sum he.wordSum he.words he.coeff hp)
  refine ⟨h1, h2, ?_⟩
  intro x hx
  cases hxh : x.isH with
  | true => rcases (h3 x hx).1 hxh with rfl | rfl <;> simp [OpName.bodies]
  | false => exact hk _ ((h3 x hx).2 hxh)

/-- The hypotheses of C109 can be met: the two-body Hamiltonian and a two-body amplitude have the expected factors, their commutators have
results and the expansions run. -/
theorem C109_example : ∃ (h t : Term) (o : Options), LibraryTerm exMachine h ∧ LibraryTerm exMachine t ∧ DisjointLabels h t ∧
    properFactors h.tensors = {(.hamiltonian, ['H'], 4)} ∧ properFactors t.tensors = {(.cluster, ['T'], 4)} ∧ 1 ≤ o.nProcess ∧
    (∃ out, ContractRun exMachine o [h, t] 1 out) ∧ (∃ out, CommutatorRun exMachine o h t 1 out) ∧
    (∃ calls outs, BchRun exMachine o [1, 2] true false [(2, 0, 6), (2, 0, 6)] calls outs) ∧
    (∃ expansion calls out, NestedRun exMachine o 2 [1, 2] true false expansion calls out) := by
  obtain ⟨c, l, p⟩ := exMachine_ok
  obtain ⟨h, x, hh, hx, hx1, hx2, hx3, hx4, -⟩ := C38_hamiltonian 2 0 .spinOrbital
  obtain ⟨t, y, ht, hy, hy1, hy2, hy3, hy4, -⟩ := C38_cluster 2 4 true ['T'] 1 (holeSpace false) (particleSpace false) .spinOrbital rfl fun _ => rfl
  have a := LibraryTerm.hamiltonian (m := exMachine) 2 0 h (by decide) hh
  have b := LibraryTerm.amplitude (m := exMachine) 2 4 true 1 false t (by decide) ht
  have gh := hamiltonian_good_from hh
  have gt := cluster_good ht
  have hd : DisjointLabels h t := disjointLabels_of_numbers (N := 4) (fun i hi => by have := gh.2.2.2.2.2 i hi; omega) (fun i hi => by have := gt.2.2.2.2.2 i hi; omega)
  let o : Options := { maxCu := 2, maxOpen := 6, minOpen := 0, forCommutator := true, expandHole := true, nProcess := 2, hermitian := true }
  refine ⟨h, t, o, a, b, hd, ?_, ?_, by decide,
    (C76_contract_terms _ c l p o (by decide) [h, t] (by simp) (by simp [a, b]) (by simpa using hd) 1).2,
    (C76_single_commutator _ c l p o (by decide) h t a b hd 1).2,
    (C76_bch_cc_rsc _ c l p o (by decide) [1, 2] (by simp) (by simp) true false _).2, ?_⟩
  · rw [hx]
    simp [properFactors, hx1, hx2, hx3, hx4, consecutive]
  · rw [hy]
    simp [properFactors, hy1, hy2, hy3, hy4, consecutive]
  · obtain ⟨-, ⟨e, he⟩, hrun⟩ := C76_nested_commutator_cc _ c l p o (by decide) 2 [1, 2] (by simp) true false
    exact ⟨e, hrun e he⟩

end Dsrg
