import Verif.Lemmas.Collected
import Verif.Lemmas.CanonUnique
import Verif.Props.Total

/-!
Property theorems: like terms are collected.  In the lists returned by contractions and commutators no two terms differ in notation only, for
every function `canon` that meets SymPy's contract and answers with a canonical form (Verif/Spec/CanonicalForm.lean).
-/

namespace Dsrg

/-! ### C86 like terms are collected -/

/-- `contract_terms`. -/
theorem C86_contract_terms (m : Machine) (hcanon : CanonContract m.canon) (huniq : CanonUnique m.canon) (hord : m.ord.Lawful) (hcpu : 1 ≤ m.cpus)
    (o : Options) (terms : List Term) (h : ∀ t ∈ terms, LibraryTerm m t) (hd : terms.Pairwise DisjointLabels) (scale : ℚ)
    (out : List Term) (ho : ContractRun m o terms scale out) : Collected o.hermitian out :=
  (ContractRun.canonical hcanon huniq hord (by rintro rfl; exact ho) (fun t ht => (h t ht).nice hcanon hord hcpu) hd ho).2

/-- `single_commutator`. -/
theorem C86_single_commutator (m : Machine) (hcanon : CanonContract m.canon) (huniq : CanonUnique m.canon) (hord : m.ord.Lawful) (hcpu : 1 ≤ m.cpus)
    (o : Options) (hn : 1 ≤ o.nProcess) (left right : Term) (hl : LibraryTerm m left) (hr : LibraryTerm m right) (hd : DisjointLabels left right)
    (scale : ℚ) (out : List Term) (ho : CommutatorRun m o left right scale out) : Collected o.hermitian out :=
  (CommutatorRun.canonical hcanon huniq hord hcpu hn (hl.nice hcanon hord hcpu) (hr.nice hcanon hord hcpu) hd ho).2

/-- `linear_commutator`. -/
theorem C86_linear_commutator (m : Machine) (hcanon : CanonContract m.canon) (huniq : CanonUnique m.canon) (hord : m.ord.Lawful) (hcpu : 1 ≤ m.cpus)
    (o : Options) (hn : 1 ≤ o.nProcess) (lefts rights : List Term) (hl : ∀ t ∈ lefts, LibraryTerm m t) (hr : ∀ t ∈ rights, LibraryTerm m t)
    (hd : ∀ a ∈ lefts, ∀ b ∈ rights, DisjointLabels a b) (scale : ℚ) (out : List Term) (ho : LinearCommutatorRun m o lefts rights scale out) :
    Collected o.hermitian out := by
  obtain ⟨all, ha, hc⟩ := ho
  have hp : ∀ p ∈ lefts.flatMap fun l => rights.map fun r => (l, r), NiceTerm p.1 ∧ NiceTerm p.2 ∧ DisjointLabels p.1 p.2 := by
    intro p hp
    obtain ⟨l, hl', hp⟩ := List.mem_flatMap.1 hp
    obtain ⟨r, hr', rfl⟩ := List.mem_map.1 hp
    exact ⟨(hl l hl').nice hcanon hord hcpu, (hr r hr').nice hcanon hord hcpu, hd l hl' r hr'⟩
  exact (CommutatorsRun.canonical hcanon huniq hord hcpu (o := { o with expandHole := true }) hn scale hp all ha).nice_collected hcanon huniq
    ((CommutatorsRun.fine hcanon hord hcpu (o := { o with expandHole := true }) hn scale hp).2.2 all ha) hc

theorem RecursiveRun.collected {m : Machine} (hcanon : CanonContract m.canon) (huniq : CanonUnique m.canon) (hord : m.ord.Lawful) (hcpu : 1 ≤ m.cpus)
    {o : Options} (hn : 1 ≤ o.nProcess) :
    ∀ {levels : List (Term × Int × Int × Int)} {pool : List Term} {N : Nat}, GoodList N pool → (∀ t ∈ pool, NiceTerm t) →
      (∀ l ∈ levels, NiceTerm l.1) → (∀ pre l post, levels = pre ++ l :: post → ∀ i ∈ labelsOf l.1.tensors l.1.sqOp,
        N + (pre.map fun l => (labelsOf l.1.tensors l.1.sqOp).card).sum ≤ i.number) →
      ∀ outs, RecursiveRun m o pool levels outs → ∀ out ∈ outs, Collected o.hermitian out := by
  intro levels
  induction levels with
  | nil =>
    rintro pool N - - - - outs h
    rw [show outs = [] from h]
    simp
  | cons l levels ih =>
    intro pool N hp hnice hl hnum outs ho
    obtain ⟨right, maxCu, minOpen, maxOpen⟩ := l
    have hr : NiceTerm right := hl (right, maxCu, minOpen, maxOpen) (by simp)
    have hrn : ∀ i ∈ labelsOf right.tensors right.sqOp, N ≤ i.number := fun i hi => by simpa using hnum [] _ levels rfl i hi
    have hpair : ∀ p ∈ pool.map fun l => (l, right), GoodTerm p.1 ∧ GoodTerm p.2 ∧ DisjointLabels p.1 p.2 ∧
        (labelsOf p.1.tensors p.1.sqOp).card + (labelsOf p.2.tensors p.2.sqOp).card ≤ N + (labelsOf right.tensors right.sqOp).card := by
      intro p hpm
      obtain ⟨l, hl, rfl⟩ := List.mem_map.1 hpm
      exact ⟨(hp l hl).1, hr.1, disjointLabels_of_numbers (hp l hl).2.number hrn, Nat.add_le_add_right (hp l hl).2.card _⟩
    have hpn : ∀ p ∈ pool.map fun l => (l, right), NiceTerm p.1 ∧ NiceTerm p.2 ∧ DisjointLabels p.1 p.2 := by
      intro p hpm
      obtain ⟨-, -, h3, -⟩ := hpair p hpm
      obtain ⟨l, hl, rfl⟩ := List.mem_map.1 hpm
      exact ⟨hnice l hl, hr, h3⟩
    obtain ⟨all, out, outs', h1, h2, h3, rfl⟩ := ho
    have a3 := (CommutatorsRun.fine hcanon hord hcpu (o := { o with maxCu := maxCu, maxOpen := maxOpen, minOpen := minOpen }) hn 1 hpn).2.2 all h1
    have c3 := CommutatorsRun.canonical hcanon huniq hord hcpu (o := { o with maxCu := maxCu, maxOpen := maxOpen, minOpen := minOpen }) hn 1 hpn all h1
    rw [List.forall_mem_cons]
    refine ⟨c3.nice_collected hcanon huniq a3 h2, ?_⟩
    refine ih ((CommutatorsRun.good hcanon hord hpair h1).combine h2) (nice_combine a3 h2) (fun l hl' => hl l (by simp [hl'])) ?_ outs' h3
    intro pre l post e i hi
    have := hnum ((right, maxCu, minOpen, maxOpen) :: pre) l post (by rw [e]; rfl) i hi
    simp only [List.map_cons, List.sum_cons] at this
    omega

/-- `recursive_single_commutator`, every level; the numbers of the labels of each term exceed those in use, as in C76. -/
theorem C86_recursive_single_commutator (m : Machine) (hcanon : CanonContract m.canon) (huniq : CanonUnique m.canon) (hord : m.ord.Lawful)
    (hcpu : 1 ≤ m.cpus) (o : Options)
    (hn : 1 ≤ o.nProcess) (first : Term) (levels : List (Term × Int × Int × Int)) (hf : LibraryTerm m first) (hl : ∀ l ∈ levels, LibraryTerm m l.1)
    (N : Nat) (hN : (labelsOf first.tensors first.sqOp).card ≤ N ∧ ∀ i ∈ labelsOf first.tensors first.sqOp, i.number < N)
    (hnum : ∀ pre l post, levels = pre ++ l :: post → ∀ i ∈ labelsOf l.1.tensors l.1.sqOp,
      N + (pre.map fun l => (labelsOf l.1.tensors l.1.sqOp).card).sum ≤ i.number)
    (outs : List (List Term)) (ho : RecursiveRun m o [first] levels outs) : ∀ out ∈ outs, Collected o.hermitian out := by
  have hfn := hf.nice hcanon hord hcpu
  exact RecursiveRun.collected hcanon huniq hord hcpu hn (pool := [first]) (N := N) (by
      intro t ht
      obtain rfl : t = first := by simpa using ht
      exact ⟨hfn.1, hN.1, hN.2⟩) (by simpa using hfn) (fun l hl' => (hl l hl').nice hcanon hord hcpu) hnum outs ho

theorem BchLevels.collected {m : Machine} (hcanon : CanonContract m.canon) (huniq : CanonUnique m.canon) (hord : m.ord.Lawful) (hcpu : 1 ≤ m.cpus)
    {o : Options} (hn : 1 ≤ o.nProcess)
    {levels : List Nat} (hk : ∀ k ∈ levels, 1 ≤ k) {unitary singleRef : Bool} {maxLevel : Nat} (hmax : ∀ k ∈ levels, k ≤ maxLevel) :
    ∀ {limits : List (Int × Int × Int)} {i : Nat} {pool : List Term}, GoodList (i * (maxLevel * 2) + 4) pool → (∀ t ∈ pool, NiceTerm t) →
      ∀ calls outs, BchLevels m o levels unitary singleRef (maxLevel * 2) i pool limits calls outs → ∀ out ∈ outs, Collected o.hermitian out := by
  intro limits
  induction limits with
  | nil =>
    rintro i pool - - calls outs ⟨-, rfl⟩
    simp
  | cons x limits ih =>
    intro i pool hp hnice calls outs ho
    obtain ⟨maxCu, minOpen, maxOpen⟩ := x
    obtain ⟨amps, all, copies, out, pool', calls', outs', ha, h2, h3, h4, h5, h6, -, rfl⟩ := ho
    have hpairs := level_pairs hmax hp ha
    have hampn := clusterOperators_nice hk ha
    have hpn : ∀ p ∈ pool.flatMap fun l => amps.map fun r => (l, r), NiceTerm p.1 ∧ NiceTerm p.2 ∧ DisjointLabels p.1 p.2 := by
      intro p hpm
      refine ⟨?_, ?_, (hpairs p hpm).2.2.1⟩
      · obtain ⟨l, hl, hpm⟩ := List.mem_flatMap.1 hpm
        obtain ⟨r, hr, rfl⟩ := List.mem_map.1 hpm
        exact hnice l hl
      · obtain ⟨l, hl, hpm⟩ := List.mem_flatMap.1 hpm
        obtain ⟨r, hr, rfl⟩ := List.mem_map.1 hpm
        exact hampn r hr
    have a3 := (CommutatorsRun.fine hcanon hord hcpu (o := { o with maxCu := maxCu, maxOpen := maxOpen, minOpen := minOpen }) hn _ hpn).2.2 all h2
    have c3 := CommutatorsRun.canonical hcanon huniq hord hcpu (o := { o with maxCu := maxCu, maxOpen := maxOpen, minOpen := minOpen }) hn _ hpn all h2
    have e : i * (maxLevel * 2) + 4 + maxLevel * 2 = (i + 1) * (maxLevel * 2) + 4 := by ring
    have g1 := CommutatorsRun.good hcanon hord hpairs h2
    have g3 := ((g1.copies h3).combine h4).copies h5
    rw [e] at g3
    rw [List.forall_mem_cons]
    exact ⟨(c3.copies h3).nice_collected hcanon huniq (copies_live a3 h3) h4,
      ih g3 (copies_live (nice_combine (copies_live a3 h3) h4) h5) calls' outs' h6⟩

/-- `bch_cc_rsc`, every level of the commutators. -/
theorem C86_bch_cc_rsc (m : Machine) (hcanon : CanonContract m.canon) (huniq : CanonUnique m.canon) (hord : m.ord.Lawful) (hcpu : 1 ≤ m.cpus)
    (o : Options) (hn : 1 ≤ o.nProcess) (levels : List Nat) (hk : ∀ k ∈ levels, 1 ≤ k) (unitary singleRef : Bool) (limits : List (Int × Int × Int))
    (calls : List (List (Term × Term))) (outs : List (List Term)) (ho : BchRun m o levels unitary singleRef limits calls outs) :
    ∀ out ∈ outs.tail, Collected o.hermitian out := by
  obtain ⟨maxLevel, start, rest, h1, h2, h3, rfl⟩ := ho
  exact BchLevels.collected hcanon huniq hord hcpu hn hk (fun k hk => (List.max?_eq_some_iff.1 h1).2 k hk) (i := 0) (pool := start)
    (by simpa using (bchStart_good hord h2).1) (bchStart_nice hord h2) calls rest h3

theorem NestedLoop.canonical {m : Machine} (hcanon : CanonContract m.canon) (huniq : CanonUnique m.canon) (hord : m.ord.Lawful)
    {o : Options} {singleRef : Bool} {scale : ℚ} : ∀ {e : List (ℤ × List OpName)},
    (∀ p ∈ e, 2 ≤ p.2.length ∧ p.2.countP OpName.isH ≤ 1 ∧ ∀ x ∈ p.2, 1 ≤ x.bodies) →
      ∀ calls out, NestedLoop m o singleRef scale e calls out → CanonList m.canon o.hermitian out := by
  intro e
  induction e with
  | nil =>
    rintro - calls out ⟨rfl, rfl⟩
    simp [CanonList]
  | cons p e ih =>
    intro h calls out ho
    obtain ⟨c, names⟩ := p
    obtain ⟨h1, h2, h3⟩ := h (c, names) (by simp)
    obtain ⟨terms, ht, hl, hlen⟩ := nestedFactors_live (singleRef := singleRef) names 0
    obtain ⟨terms', o1, calls', o2, ht', k1, k2, rfl, rfl⟩ := ho
    rw [ht] at ht'
    obtain rfl := Except.ok.inj ht'
    obtain ⟨g1, g2, -, -, g5, -⟩ := nestedFactors_good h2 ht
    have hne : terms ≠ [] := by
      rintro rfl
      rw [← hlen] at h1
      simp at h1
    have hops : ¬ (productOps terms).length < 2 := by
      have : productOps terms = terms.map Term.sqOp := by
        unfold productOps
        rw [List.filter_eq_self]
        intro op hop
        obtain ⟨t, ht, rfl⟩ := List.mem_map.1 hop
        have : t.sqOp.upper.list.length ∈ terms.map (fun t => t.sqOp.upper.list.length) := List.mem_map.2 ⟨t, ht, rfl⟩
        rw [g5] at this
        obtain ⟨x, hx, e⟩ := List.mem_map.1 this
        have := h3 x hx
        simp only [decide_eq_true_eq]
        unfold IndicesPair.size IndicesPair.nUpper Indices.size
        omega
      rw [this, List.length_map, hlen]
      exact not_lt.2 h1
    exact ((ContractRun.canonical hcanon huniq hord hne (fun t ht => ⟨g1 t ht, hl h3 t ht⟩) g2 k1).1.resolve_left hops).append
      (ih (fun q hq => h q (by simp [hq])) calls' o2 k2)

/-- `nested_commutator_cc`, whatever the order in which SymPy gives the products. -/
theorem C86_nested_commutator_cc (m : Machine) (hcanon : CanonContract m.canon) (huniq : CanonUnique m.canon) (hord : m.ord.Lawful) (hcpu : 1 ≤ m.cpus)
    (o : Options) (hn : 1 ≤ o.nProcess) (level : Nat) (levels : List Nat) (hk : ∀ k ∈ levels, 1 ≤ k) (unitary singleRef : Bool)
    (expansion : List (ℤ × List OpName)) (calls : List (List Term × ℚ)) (out : List Term)
    (ho : NestedRun m o level levels unitary singleRef expansion calls out) : Collected o.hermitian out := by
  obtain ⟨all, h, h1, h2⟩ := ho
  have hw : ∀ p ∈ expansion, 2 ≤ p.2.length ∧ p.2.countP OpName.isH ≤ 1 ∧ ∀ x ∈ p.2, 1 ≤ x.bodies := by
    intro p hp
    obtain ⟨h1, h2, h3⟩ := nestedWords_mem (mem_words_of_sum h.wordSum h.words h.coeff hp)
    refine ⟨by rw [h2]; omega, h1.le, ?_⟩
    intro x hx
    cases hxh : x.isH with
    | true => rcases (h3 x hx).1 hxh with rfl | rfl <;> simp [OpName.bodies]
    | false => exact hk _ ((h3 x hx).2 hxh)
  exact (NestedLoop.canonical hcanon huniq hord hw calls all h1).nice_collected hcanon huniq
    ((NestedLoop.fine hcanon hord hcpu hn (fun p hp => ⟨fun e => by have := (hw p hp).1; rw [e] at this; simp at this, (hw p hp).2⟩)).2.2 calls all h1) h2

/-- The hypotheses of C86 can be met: a function that gives canonical forms, the contraction of the two-body Hamiltonian with a two-body
amplitude, and the commutators with one or two amplitudes. -/
theorem C86_example : ∃ (m : Machine) (h t₁ : Term) (o : Options), CanonContract m.canon ∧ CanonUnique m.canon ∧ m.ord.Lawful ∧ 1 ≤ m.cpus ∧
    LibraryTerm m h ∧ LibraryTerm m t₁ ∧ DisjointLabels h t₁ ∧ 1 ≤ o.nProcess ∧
    (∃ out, ContractRun m o [h, t₁] 1 out) ∧ (∃ out, CommutatorRun m o h t₁ 1 out) ∧ (∃ out, LinearCommutatorRun m o [h] [t₁] 1 out) ∧
    (∃ outs, RecursiveRun m o [h] [(t₁, 2, 0, 6)] outs) ∧
    (∃ calls outs, BchRun m o [1, 2] false false [(2, 0, 6), (2, 0, 6)] calls outs) ∧
    (∃ expansion calls out, NestedRun m o 2 [1, 2] false false expansion calls out) := by
  let m : Machine := ⟨chosenCanon, SetOrder.sorted, 4⟩
  have c : CanonContract m.canon := chosenCanon_contract
  have l : m.ord.Lawful := SetOrder.sorted_lawful
  have p : 1 ≤ m.cpus := by decide
  obtain ⟨h, _, hh, -⟩ := C38_hamiltonian 2 0 .spinOrbital
  obtain ⟨t₁, h₁⟩ := cluster_total 2 4 true 1 false
  have a := LibraryTerm.hamiltonian (m := m) 2 0 h (by decide) hh
  have a₁ := LibraryTerm.amplitude (m := m) 2 4 true 1 false t₁ (by decide) h₁
  have gh := hamiltonian_good_from hh
  have g₁ := cluster_good h₁
  let o : Options := { maxCu := 2, maxOpen := 6, minOpen := 0, forCommutator := true, expandHole := true, nProcess := 2, hermitian := true }
  have hd : DisjointLabels h t₁ := disjointLabels_of_numbers (N := 4) (fun i hi => by have := gh.2.2.2.2.2 i hi; omega) (fun i hi => by have := g₁.2.2.2.2.2 i hi; omega)
  refine ⟨m, h, t₁, o, c, chosenCanon_unique, l, p, a, a₁, hd, by decide, ?_, ?_, ?_, ?_, ?_, ?_⟩
  · exact (C76_contract_terms _ c l p o (by decide) [h, t₁] (by simp) (by simp [a, a₁]) (by simpa using hd) 1).2
  · exact (C76_single_commutator _ c l p o (by decide) h t₁ a a₁ hd 1).2
  · exact (C76_linear_commutator _ c l p o (by decide) [h] [t₁] (by simpa using a) (by simpa using a₁) (by simpa using hd) 1).2
  · refine (C76_recursive_single_commutator _ c l p o (by decide) h _ a (by simp [a₁]) 4 ⟨?_, ?_⟩ ?_).2
    · rw [gh.2.1]
    · intro i hi
      have := gh.2.2.2.2.2 i hi
      omega
    · intro pre l post e i hi
      match pre, e with
      | [], e =>
        obtain ⟨rfl, -⟩ := List.cons.inj e
        have := g₁.2.2.2.2.2 i hi
        simpa using this.2.1
      | [_], e => simp at e
      | _ :: _ :: _, e => simp at e
  · exact (C76_bch_cc_rsc _ c l p o (by decide) [1, 2] (by simp) (by simp) false false _).2
  · obtain ⟨-, ⟨e, he⟩, h3⟩ := C76_nested_commutator_cc _ c l p o (by decide) 2 [1, 2] (by simp) false false
    exact ⟨e, h3 e he⟩

end Dsrg
