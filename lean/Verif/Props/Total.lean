import Verif.Lemmas.LibraryNice
import Verif.Lemmas.PlainCanon
import Verif.Spec.Library
import Verif.Props.BchValue
import Mathlib.LinearAlgebra.Finsupp.LinearCombination

/-!
C76: contractions and commutators of the operators of the library end without exception, whatever SymPy's choices, the iteration order of
sets and the order in which worker processes deliver.
-/

namespace Dsrg

/-- `contract_terms`: no run raises an exception, and there is a run. -/
theorem C76_contract_terms (m : Machine) (hcanon : CanonContract m.canon) (hord : m.ord.Lawful) (hcpu : 1 ≤ m.cpus) (o : Options) (hn : 1 ≤ o.nProcess)
    (terms : List Term) (hne : terms ≠ []) (h : ∀ t ∈ terms, LibraryTerm m t) (hd : terms.Pairwise DisjointLabels) (scale : ℚ) :
    ¬ ContractRaises m o terms scale ∧ ∃ out, ContractRun m o terms scale out :=
  let r := ContractRun.fine hcanon hord hcpu hn hne (fun t ht => (h t ht).nice hcanon hord hcpu) hd scale
  ⟨r.1, r.2.1⟩

/-- `single_commutator`. -/
theorem C76_single_commutator (m : Machine) (hcanon : CanonContract m.canon) (hord : m.ord.Lawful) (hcpu : 1 ≤ m.cpus) (o : Options)
    (hn : 1 ≤ o.nProcess) (left right : Term) (hl : LibraryTerm m left) (hr : LibraryTerm m right) (hd : DisjointLabels left right) (scale : ℚ) :
    ¬ CommutatorRaises m o left right scale ∧ ∃ out, CommutatorRun m o left right scale out :=
  let r := CommutatorRun.fine hcanon hord hcpu hn (hl.nice hcanon hord hcpu) (hr.nice hcanon hord hcpu) hd scale
  ⟨r.1, r.2.1⟩

/-- `linear_commutator`. -/
theorem C76_linear_commutator (m : Machine) (hcanon : CanonContract m.canon) (hord : m.ord.Lawful) (hcpu : 1 ≤ m.cpus) (o : Options)
    (hn : 1 ≤ o.nProcess) (lefts rights : List Term) (hl : ∀ t ∈ lefts, LibraryTerm m t) (hr : ∀ t ∈ rights, LibraryTerm m t)
    (hd : ∀ a ∈ lefts, ∀ b ∈ rights, DisjointLabels a b) (scale : ℚ) :
    ¬ LinearCommutatorRaises m o lefts rights scale ∧ ∃ out, LinearCommutatorRun m o lefts rights scale out :=
  let r := LinearCommutatorRun.fine hcanon hord hcpu hn (fun t ht => (hl t ht).nice hcanon hord hcpu) (fun t ht => (hr t ht).nice hcanon hord hcpu) hd scale
  ⟨r.1, r.2.1⟩

/-- C61 for the terms that `contract_terms` simplifies: the tensors of a product of library terms with the densities and the remaining operator of
any of its contractions. -/
theorem C61_simplify_partial (m : Machine) (hcanon : CanonContract m.canon) (hord : m.ord.Lawful) (hcpu : 1 ≤ m.cpus) (o : Options)
    (terms : List Term) (hne : terms ≠ []) (h : ∀ t ∈ terms, LibraryTerm m t) (hd : terms.Pairwise DisjointLabels) (batches : List (List Row))
    (hb : ContractionsRun (properOps terms) o batches) (row : Row) (hrow : row ∈ batches.flatten) (c : ℚ) (removeActive : Bool) :
    ∃ t s, Term.make (allTensors terms ++ row.2.1) row.2.2 c = .ok t ∧ t.simplify m.ord true removeActive = .ok s := by
  have hg : ∀ t ∈ terms, GoodTerm t := fun t ht => ((h t ht).nice hcanon hord hcpu).1
  have hl : ∀ t ∈ terms, LiveTerm t := fun t ht => ((h t ht).nice hcanon hord hcpu).2
  rw [properOps_eq] at hb
  obtain ⟨cs, -, -, hall, hperm⟩ := contractions_spec (goodOps_productOps (ordinary_of_good hg hd).ops) hb
  obtain ⟨x, hx, hrx⟩ := List.mem_flatMap.1 (hperm.mem_iff.1 hrow)
  exact row_simplifies hord hne hg hl hd (hall x hx) hrx c removeActive

/-- The loop of `recursive_single_commutator`; the numbers of the labels of the right terms exceed the numbers of the labels in use: those of
the first terms of the pool and those given by the canonicalization, which are at most as many as labels have been combined. -/
theorem RecursiveRun.fine {m : Machine} (hcanon : CanonContract m.canon) (hord : m.ord.Lawful) (hcpu : 1 ≤ m.cpus) {o : Options} (hn : 1 ≤ o.nProcess) :
    ∀ {levels : List (Term × Int × Int × Int)} {pool : List Term} {N : Nat}, GoodList N pool → (∀ t ∈ pool, NiceTerm t) →
      (∀ l ∈ levels, NiceTerm l.1) → (∀ pre l post, levels = pre ++ l :: post → ∀ i ∈ labelsOf l.1.tensors l.1.sqOp,
        N + (pre.map fun l => (labelsOf l.1.tensors l.1.sqOp).card).sum ≤ i.number) →
      ¬ RecursiveRaises m o pool levels ∧ ∃ outs, RecursiveRun m o pool levels outs := by
  intro levels
  induction levels with
  | nil => intro pool N _ _ _ _; exact ⟨fun h => h, [], rfl⟩
  | cons l levels ih =>
    intro pool N hp hnice hl hnum
    obtain ⟨right, maxCu, minOpen, maxOpen⟩ := l
    have hr : NiceTerm right := hl (right, maxCu, minOpen, maxOpen) (by simp)
    have hrn : ∀ i ∈ labelsOf right.tensors right.sqOp, N ≤ i.number := fun i hi => by simpa using hnum [] _ levels rfl i hi
    have hpair : ∀ p ∈ pool.map fun l => (l, right), GoodTerm p.1 ∧ GoodTerm p.2 ∧ DisjointLabels p.1 p.2 ∧
        (labelsOf p.1.tensors p.1.sqOp).card + (labelsOf p.2.tensors p.2.sqOp).card ≤ N + (labelsOf right.tensors right.sqOp).card := by
      intro p hpm
      obtain ⟨l, hl, rfl⟩ := List.mem_map.1 hpm
      exact ⟨(hp l hl).1, hr.1, disjointLabels_of_numbers (hp l hl).2.number hrn, Nat.add_le_add_right (hp l hl).2.card _⟩
    obtain ⟨a1, a2, a3⟩ := CommutatorsRun.fine hcanon hord hcpu (o := { o with maxCu := maxCu, maxOpen := maxOpen, minOpen := minOpen }) hn 1
      (pairs := pool.map fun l => (l, right)) (by
        intro p hpm
        obtain ⟨-, -, h3, -⟩ := hpair p hpm
        obtain ⟨l, hl, rfl⟩ := List.mem_map.1 hpm
        exact ⟨hnice l hl, hr, h3⟩)
    have step : ∀ all out, CommutatorsRun m { o with maxCu := maxCu, maxOpen := maxOpen, minOpen := minOpen } 1 (pool.map fun l => (l, right)) all →
        combineTerms all = .ok out → ¬ RecursiveRaises m o out levels ∧ ∃ outs, RecursiveRun m o out levels outs := by
      intro all out h1 h2
      refine ih ((CommutatorsRun.good hcanon hord hpair h1).combine h2) (nice_combine (a3 all h1) h2) (fun l hl' => hl l (by simp [hl'])) ?_
      intro pre l post e i hi
      have := hnum ((right, maxCu, minOpen, maxOpen) :: pre) l post (by rw [e]; rfl) i hi
      simp only [List.map_cons, List.sum_cons] at this
      omega
    refine ⟨?_, ?_⟩
    · rintro (h | ⟨all, h1, h | ⟨out, h2, h⟩⟩)
      · exact a1 h
      · exact combine_noRaise (fun t ht => (a3 all h1 t ht).1) h
      · exact (step all out h1 h2).1 h
    · obtain ⟨all, h1⟩ := a2
      obtain ⟨out, h2⟩ := combine_total fun t ht => (a3 all h1 t ht).1
      obtain ⟨-, outs, h3⟩ := step all out h1 h2
      exact ⟨_, all, out, outs, h1, h2, h3, rfl⟩

/-- `recursive_single_commutator` of `[[…[t₀, t₁], …], tₙ]`: the numbers of the labels of each term exceed the numbers of the labels of `t₀` and the
number of labels of all terms before it. -/
theorem C76_recursive_single_commutator (m : Machine) (hcanon : CanonContract m.canon) (hord : m.ord.Lawful) (hcpu : 1 ≤ m.cpus) (o : Options)
    (hn : 1 ≤ o.nProcess) (first : Term) (levels : List (Term × Int × Int × Int)) (hf : LibraryTerm m first) (hl : ∀ l ∈ levels, LibraryTerm m l.1)
    (N : Nat) (hN : (labelsOf first.tensors first.sqOp).card ≤ N ∧ ∀ i ∈ labelsOf first.tensors first.sqOp, i.number < N)
    (hnum : ∀ pre l post, levels = pre ++ l :: post → ∀ i ∈ labelsOf l.1.tensors l.1.sqOp,
      N + (pre.map fun l => (labelsOf l.1.tensors l.1.sqOp).card).sum ≤ i.number) :
    ¬ RecursiveRaises m o [first] levels ∧ ∃ outs, RecursiveRun m o [first] levels outs := by
  have hfn := hf.nice hcanon hord hcpu
  exact RecursiveRun.fine hcanon hord hcpu hn (pool := [first]) (N := N) (by
      intro t ht
      obtain rfl : t = first := by simpa using ht
      exact ⟨hfn.1, hN.1, hN.2⟩) (by simpa using hfn) (fun l hl' => (hl l hl').nice hcanon hord hcpu) hnum

/-- `bch_cc_rsc`: for every list of levels that is not empty, whose levels are positive, and all limits. -/
theorem C76_bch_cc_rsc (m : Machine) (hcanon : CanonContract m.canon) (hord : m.ord.Lawful) (hcpu : 1 ≤ m.cpus) (o : Options) (hn : 1 ≤ o.nProcess)
    (levels : List Nat) (hne : levels ≠ []) (hk : ∀ k ∈ levels, 1 ≤ k) (unitary singleRef : Bool) (limits : List (Int × Int × Int)) :
    ¬ BchRaises m o levels unitary singleRef limits ∧ ∃ calls outs, BchRun m o levels unitary singleRef limits calls outs := by
  obtain ⟨maxLevel, hmax⟩ : ∃ x, levels.max? = some x := by
    cases h : levels.max? with
    | none => exact absurd (List.max?_eq_none_iff.1 h) hne
    | some x => exact ⟨x, rfl⟩
  have hle : ∀ k ∈ levels, k ≤ maxLevel := fun k hk => (List.max?_eq_some_iff.1 hmax).2 k hk
  obtain ⟨start, hs⟩ := bchStart_total hord
  have key := BchLevels.fine hcanon hord hcpu hn hk (unitary := unitary) (singleRef := singleRef) hle (limits := limits) (i := 0) (pool := start)
    (by simpa using (bchStart_good hord hs).1) (bchStart_nice hord hs)
  refine ⟨?_, ?_⟩
  · rintro (h | ⟨maxLevel', h1, h | ⟨start', h2, h⟩⟩)
    · rw [hmax] at h; cases h
    · exact not_error hs h
    · rw [hmax] at h1
      injection h1 with h1
      subst h1
      rw [hs] at h2
      injection h2 with h2
      subst h2
      exact key.1 h
  · obtain ⟨-, calls, outs, h⟩ := key
    exact ⟨calls, _, maxLevel, start, outs, hmax, hs, h, rfl⟩

/-- An expression that is a sum of products has an expansion. -/
theorem exists_expansion (e : List (ℤ × List OpName)) : ∃ e', IsExpansion e' (wordSum e) := by
  classical
  let f : List OpName →₀ ℤ := (e.map fun p => Finsupp.single p.2 p.1).sum
  refine ⟨f.support.toList.map fun w => (f w, w), ?_, ?_, ?_⟩
  · rw [List.map_map]
    simpa [Function.comp_def] using f.support.nodup_toList
  · intro p hp
    obtain ⟨w, hw, rfl⟩ := List.mem_map.1 hp
    simpa using hw
  · rw [List.map_map]
    have h1 : Finsupp.linearCombination ℤ (fun w : List OpName => (w.map (FreeAlgebra.ι ℤ)).prod) f = wordSum e := by
      simp only [f, map_list_sum, List.map_map]
      unfold wordSum wordProd
      congr 1
      refine List.map_congr_left fun p _ => ?_
      simp
    rw [← h1, Finsupp.linearCombination_apply, Finsupp.sum, ← Finset.sum_map_toList]
    rfl

/-- `nested_commutator_cc`: whatever the order in which SymPy gives the products. -/
theorem C76_nested_commutator_cc (m : Machine) (hcanon : CanonContract m.canon) (hord : m.ord.Lawful) (hcpu : 1 ≤ m.cpus) (o : Options)
    (hn : 1 ≤ o.nProcess) (level : Nat) (levels : List Nat) (hk : ∀ k ∈ levels, 1 ≤ k) (unitary singleRef : Bool) :
    (∀ expansion, ¬ NestedRaises m o level levels unitary singleRef expansion) ∧
    (∃ expansion, IsExpansion expansion (symbolicCommutator level levels unitary)) ∧
    ∀ expansion, IsExpansion expansion (symbolicCommutator level levels unitary) →
      ∃ calls out, NestedRun m o level levels unitary singleRef expansion calls out := by
  have key : ∀ expansion, IsExpansion expansion (symbolicCommutator level levels unitary) → _ := fun expansion h =>
    NestedLoop.fine hcanon hord hcpu hn (singleRef := singleRef) (scale := 1 / (level.factorial : ℚ)) (e := expansion) (by
      intro p hp
      obtain ⟨h1, h2, h3⟩ := nestedWords_mem (mem_words_of_sum h.wordSum h.words h.coeff hp)
      refine ⟨fun e => by rw [e] at h2; simp at h2, h1.le, ?_⟩
      intro x hx
      cases hxh : x.isH with
      | true => rcases (h3 x hx).1 hxh with rfl | rfl <;> simp [OpName.bodies]
      | false => exact hk _ ((h3 x hx).2 hxh))
  refine ⟨?_, ?_, ?_⟩
  · rintro expansion ⟨h, hr | ⟨calls, all, e, h1, h2⟩⟩
    · exact (key expansion h).1 hr
    · exact combine_noRaise (fun t ht => ((key expansion h).2.2 calls all h1 t ht).1) ⟨e, h2⟩
  · obtain ⟨e, he⟩ := exists_expansion (nestedWords [OpName.H 1, OpName.H 2] (ampSymbols levels unitary) (max 1 level))
    refine ⟨e, ?_⟩
    have : symbolicCommutator level levels unitary = wordSum (nestedWords [OpName.H 1, OpName.H 2] (ampSymbols levels unitary) (max 1 level)) := by
      rcases Nat.eq_zero_or_pos level with rfl | hl
      · exact symbolicCommutator_zero levels unitary
      · rw [max_eq_right hl, symbolicCommutator_eq hl]
    rw [this]
    exact he
  · intro expansion h
    obtain ⟨-, ⟨calls, all, h1⟩, h2⟩ := key expansion h
    obtain ⟨out, h3⟩ := combine_total fun t ht => (h2 calls all h1 t ht).1
    exact ⟨calls, out, all, h, h1, h3⟩

/-- The machine of the examples. -/
noncomputable def exMachine : Machine := ⟨plainCanon, SetOrder.sorted, 4⟩

theorem exMachine_ok : CanonContract exMachine.canon ∧ exMachine.ord.Lawful ∧ 1 ≤ exMachine.cpus :=
  ⟨plainCanon_contract, SetOrder.sorted_lawful, by decide⟩

/-- The hypotheses of C76 can be met: the contraction of the two-body Hamiltonian with a two-body amplitude, and the commutators with one or
two of them. -/
theorem C76_example : ∃ (h t₁ t₂ : Term) (o : Options), LibraryTerm exMachine h ∧ LibraryTerm exMachine t₁ ∧ LibraryTerm exMachine t₂ ∧ 1 ≤ o.nProcess ∧
    (∃ out, ContractRun exMachine o [h, t₁] 1 out) ∧ (∃ out, CommutatorRun exMachine o h t₁ 1 out) ∧
    (∃ outs, RecursiveRun exMachine o [h] [(t₁, 2, 0, 6), (t₂, 2, 0, 6)] outs) ∧
    (∃ calls outs, BchRun exMachine o [1, 2] false false [(2, 0, 6), (2, 0, 6)] calls outs) ∧
    (∃ expansion calls out, NestedRun exMachine o 2 [1, 2] false false expansion calls out) := by
  obtain ⟨c, l, p⟩ := exMachine_ok
  obtain ⟨h, _, hh, -⟩ := C38_hamiltonian 2 0 .spinOrbital
  obtain ⟨t₁, h₁⟩ := cluster_total 2 4 true 1 false
  obtain ⟨t₂, h₂⟩ := cluster_total 2 8 true 1 false
  have a := LibraryTerm.hamiltonian (m := exMachine) 2 0 h (by decide) hh
  have a₁ := LibraryTerm.amplitude (m := exMachine) 2 4 true 1 false t₁ (by decide) h₁
  have a₂ := LibraryTerm.amplitude (m := exMachine) 2 8 true 1 false t₂ (by decide) h₂
  have gh := hamiltonian_good_from hh
  have g₁ := cluster_good h₁
  have g₂ := cluster_good h₂
  let o : Options := { maxCu := 2, maxOpen := 6, minOpen := 0, forCommutator := true, expandHole := true, nProcess := 2, hermitian := true }
  have hd : DisjointLabels h t₁ := disjointLabels_of_numbers (N := 4) (fun i hi => by have := gh.2.2.2.2.2 i hi; omega) (fun i hi => by have := g₁.2.2.2.2.2 i hi; omega)
  refine ⟨h, t₁, t₂, o, a, a₁, a₂, by decide, ?_, ?_, ?_, ?_, ?_⟩
  · exact (C76_contract_terms _ c l p o (by decide) [h, t₁] (by simp) (by simp [a, a₁]) (by simpa using hd) 1).2
  · exact (C76_single_commutator _ c l p o (by decide) h t₁ a a₁ hd 1).2
  · refine (C76_recursive_single_commutator _ c l p o (by decide) h _ a (by simp [a₁, a₂]) 4 ⟨?_, ?_⟩ ?_).2
    · rw [gh.2.1]
    · intro i hi
      have := gh.2.2.2.2.2 i hi
      omega
    · intro pre l post e i hi
      match pre, e with
      | [], e =>
        obtain ⟨rfl, -⟩ := List.cons.inj e
        have := g₁.2.2.2.2.2 i hi
        simpa using this.2.1
      | [_], e =>
        obtain ⟨e', e⟩ := List.cons.inj e
        rw [← e']
        obtain ⟨rfl, -⟩ := List.cons.inj e
        have h3 := g₂.2.2.2.2.2 i hi
        simp only [List.map_cons, List.map_nil, List.sum_cons, List.sum_nil, g₁.2.1]
        omega
      | [_, _], e => simp at e
      | _ :: _ :: _ :: _, e => simp at e
  · exact (C76_bch_cc_rsc _ c l p o (by decide) [1, 2] (by simp) (by simp) false false _).2
  · obtain ⟨-, ⟨e, he⟩, h3⟩ := C76_nested_commutator_cc _ c l p o (by decide) 2 [1, 2] (by simp) false false
    exact ⟨e, h3 e he⟩

/-- The hypotheses of C55, C57, C74 and C75 can be met: two levels with amplitudes of one and two bodies in the world of one determinant. -/
theorem C75_example : ∃ (o : Options) (calls : List (List (Term × Term))) (outs : List (List Term)) (expansion : List (ℤ × List OpName))
    (calls' : List (List Term × ℚ)) (out : List Term), o.forCommutator = false ∧
    BchRun exMachine o [1, 2] false false [(2, 0, 6), (2, 0, 6)] calls outs ∧
    4 * (Nat.factorial 2 ^ 2) ^ 2 * Nat.factorial 2 ≤ 10 ^ 15 ∧
    NestedRun exMachine o 2 [1, 2] false false expansion calls' out ∧ Nat.factorial 2 * (4 * (Nat.factorial 2 ^ 2) ^ 2) ≤ 10 ^ 15 ∧
    meanField.SlotSymmetric true o.hermitian ∧ meanField.Physical coreVirtual ∧ meanField.ActiveCumulants coreVirtual ∧
    meanField.NoActiveAmplitudes coreVirtual := by
  obtain ⟨c, l, p⟩ := exMachine_ok
  obtain ⟨_, _, -, -, -, -, -, -, h1, h2, h3, h4⟩ := C66_example
  let o : Options := { maxCu := 2, maxOpen := 6, minOpen := 0, forCommutator := false, expandHole := true, nProcess := 2, hermitian := exOptions.hermitian }
  obtain ⟨-, calls, outs, hb⟩ := C76_bch_cc_rsc _ c l p o (by decide) [1, 2] (by simp) (by simp) false false [(2, 0, 6), (2, 0, 6)]
  obtain ⟨-, ⟨e, he⟩, hn⟩ := C76_nested_commutator_cc _ c l p o (by decide) 2 [1, 2] (by simp) false false
  obtain ⟨calls', out, hn⟩ := hn e he
  exact ⟨o, calls, outs, e, calls', out, rfl, hb, by decide, hn, by decide, h1, h2, h3, h4⟩

/-- Without a worker process `contract_terms` raises: `n_process = 0` divides by zero. -/
theorem C76_process_needed (m : Machine) (o : Options) (ho : o.nProcess = 0) (terms : List Term) (h : 2 ≤ (productOps terms).length) (scale : ℚ) :
    ContractRaises m o terms scale := by
  cases terms with
  | nil => trivial
  | cons t terms =>
    simp only [ContractRaises]
    rw [if_neg (by omega)]
    exact .inl (by rw [ho]; simp)

/-- `bch_cc_rsc([], …)` raises. -/
theorem C76_levels_needed (m : Machine) (o : Options) (unitary singleRef : Bool) (limits : List (Int × Int × Int)) :
    BchRaises m o [] unitary singleRef limits := .inl rfl

end Dsrg
