import Verif.Lemmas.Rank
import Verif.Lemmas.RankNested
import Verif.Props.Total

/-!
C110 and C111: commutators have fewer operators than products, and the expansion of coupled cluster theory ends.
-/

namespace Dsrg

theorem CommutatorRun.fewer {m : Machine} (hcanon : CanonContract m.canon) (hord : m.ord.Lawful) {o : Options} (hf : o.forCommutator = true)
    {a b : Term} (ha : GoodTerm a) (hb : GoodTerm b) (hd : DisjointLabels a b) {scale : ℚ} {out : List Term}
    (hr : CommutatorRun m o a b scale out) : ∀ t ∈ out, nLegs t.sqOp + 2 ≤ nLegs a.sqOp + nLegs b.sqOp := by
  intro t ht
  have := CommutatorRun.legCount hcanon hord hf ha hb hd (fun _ _ => true) (fun _ _ => elementary_two) (fun _ _ => elementary_two) hr t ht
  rwa [legCount_all, legCount_all, legCount_all] at this

/-- C110: in connected mode, the terms of `single_commutator` have at least two operators less than the two terms together. -/
theorem C110_single_commutator (m : Machine) (hcanon : CanonContract m.canon) (hord : m.ord.Lawful) (hcpu : 1 ≤ m.cpus) (o : Options)
    (hf : o.forCommutator = true) (a b : Term) (ha : LibraryTerm m a) (hb : LibraryTerm m b) (hd : DisjointLabels a b) (scale : ℚ) (out : List Term)
    (hr : CommutatorRun m o a b scale out) : ∀ t ∈ out, nLegs t.sqOp + 2 ≤ nLegs a.sqOp + nLegs b.sqOp :=
  CommutatorRun.fewer hcanon hord hf (ha.nice hcanon hord hcpu).1 (hb.nice hcanon hord hcpu).1 hd hr

/-- `linear_commutator`. -/
theorem C110_linear_commutator (m : Machine) (hcanon : CanonContract m.canon) (hord : m.ord.Lawful) (hcpu : 1 ≤ m.cpus) (o : Options)
    (hf : o.forCommutator = true) (lefts rights : List Term) (hl : ∀ t ∈ lefts, LibraryTerm m t) (hr : ∀ t ∈ rights, LibraryTerm m t)
    (hd : ∀ a ∈ lefts, ∀ b ∈ rights, DisjointLabels a b) (scale : ℚ) (out : List Term) (h : LinearCommutatorRun m o lefts rights scale out) :
    ∀ t ∈ out, ∃ a ∈ lefts, ∃ b ∈ rights, nLegs t.sqOp + 2 ≤ nLegs a.sqOp + nLegs b.sqOp := by
  obtain ⟨all, h1, h2⟩ := h
  refine combine_all (P := fun t => ∃ a ∈ lefts, ∃ b ∈ rights, nLegs t.sqOp + 2 ≤ nLegs a.sqOp + nLegs b.sqOp) (fun _ _ h => h) ?_ h2
  refine CommutatorsRun.each (P := fun t => ∃ a ∈ lefts, ∃ b ∈ rights, nLegs t.sqOp + 2 ≤ nLegs a.sqOp + nLegs b.sqOp) ?_ h1
  intro p hp out ho t ht
  obtain ⟨a, ha, hp⟩ := List.mem_flatMap.1 hp
  obtain ⟨b, hb, rfl⟩ := List.mem_map.1 hp
  exact ⟨a, ha, b, hb, CommutatorRun.fewer (o := { o with expandHole := true }) hcanon hord hf ((hl a ha).nice hcanon hord hcpu).1 ((hr b hb).nice hcanon hord hcpu).1 (hd a ha b hb) ho t ht⟩

/-- `bch_cc_rsc` with amplitudes of up to `K` bodies: the terms of level `n` have at most `2 (2 + n (K - 1))` operators. -/
theorem C110_bch_cc_rsc (m : Machine) (hcanon : CanonContract m.canon) (hord : m.ord.Lawful) (o : Options)
    (hf : o.forCommutator = true) (levels : List Nat) (K : Nat) (hK : ∀ k ∈ levels, k ≤ K) (unitary singleRef : Bool) (limits : List (Int × Int × Int))
    (calls : List (List (Term × Term))) (outs : List (List Term)) (h : BchRun m o levels unitary singleRef limits calls outs) :
    ∀ n out, outs[n]? = some out → ∀ t ∈ out, nLegs t.sqOp + 2 * n ≤ 2 * (2 + n * K) := by
  obtain ⟨maxLevel, start, rest, h1, h2, h3, rfl⟩ := h
  intro n out ho t ht
  have hs := bchStart_legs hord h2
  cases n with
  | zero =>
    simp only [List.getElem?_cons_zero, Option.some.injEq] at ho
    subst ho
    have := (hs t ht).1
    omega
  | succ n =>
    rw [List.getElem?_cons_succ] at ho
    have := BchLevels.each hcanon hord hf (fun k hk => (List.max?_eq_some_iff.1 h1).2 k hk) (P := fun n op => nLegs op + 2 * n ≤ 2 * (2 + n * K)) ?_
      (by simpa using (bchStart_good hord h2).1) (fun t ht => by have := (hs t ht).1; omega) h3 n out ho t ht
    · rw [show 0 + 1 + n = n + 1 by omega] at this
      exact this
    · rintro o i a b scale out hf ga gb hd ⟨k, hk, st, e, s, -, hc⟩ hP hr t ht
      have h5 := CommutatorRun.fewer hcanon hord hf ga gb hd hr t ht
      obtain ⟨-, -, -, l1, l2, -⟩ := cluster_good hc
      have h6 : nLegs b.sqOp = k + k := by unfold nLegs; rw [l1, l2]
      have h7 := hK k hk
      have h8 : (i + 1) * K = i * K + K := by ring
      rw [h8]
      omega

theorem nLowering_eq (op : SqOp) : nLowering op = legCount (lowers true) op := by
  unfold nLowering legCount marked
  rw [List.countP_append, List.countP_map, List.countP_map]
  rfl

/-- C111: excitation operators of a single determinant commute: `single_commutator` of two of them (or of two de-excitation operators) returns
no term. -/
theorem C111_amplitudes_commute (m : Machine) (hcanon : CanonContract m.canon) (hord : m.ord.Lawful) (o : Options) (hf : o.forCommutator = true)
    (excitation : Bool) (k l start start' : Nat) (c c' : ℚ) (a b : Term)
    (ha : clusterOperator k start excitation ['T'] c (holeSpace true) (particleSpace true) .spinOrbital = .ok a)
    (hb : clusterOperator l start' excitation ['T'] c' (holeSpace true) (particleSpace true) .spinOrbital = .ok b)
    (hd : DisjointLabels a b) (scale : ℚ) (out : List Term) (hr : CommutatorRun m o a b scale out) : out = [] := by
  obtain ⟨a1, a2⟩ := cluster_legs ha
  obtain ⟨b1, b2⟩ := cluster_legs hb
  refine List.eq_nil_iff_forall_not_mem.2 fun t ht => ?_
  have := CommutatorRun.legCount hcanon hord hf (cluster_good ha).1 (cluster_good hb).1 hd (lowers excitation)
    (fun _ _ => elementary_lowers a1 b1 excitation) (fun _ _ => elementary_lowers b1 a1 excitation) hr t ht
  omega

/-- In coupled cluster theory with a single determinant (`single_reference=True`, `unitary=False`), every level of `bch_cc_rsc` has one
operator less that an amplitude can be contracted with. -/
theorem C111_lowering (m : Machine) (hcanon : CanonContract m.canon) (hord : m.ord.Lawful) (o : Options)
    (hf : o.forCommutator = true) (levels : List Nat) (limits : List (Int × Int × Int))
    (calls : List (List (Term × Term))) (outs : List (List Term)) (h : BchRun m o levels false true limits calls outs) :
    ∀ n out, outs[n]? = some out → ∀ t ∈ out, nLowering t.sqOp + n ≤ 4 := by
  obtain ⟨maxLevel, start, rest, h1, h2, h3, rfl⟩ := h
  intro n out ho t ht
  have hs := bchStart_legs hord h2
  have h0 : ∀ t ∈ start, legCount neither t.sqOp = 0 ∧ legCount (lowers true) t.sqOp + 0 ≤ 4 := fun t ht =>
    ⟨(hs t ht).2, le_trans (legCount_le _ _) (hs t ht).1⟩
  rw [nLowering_eq]
  cases n with
  | zero =>
    simp only [List.getElem?_cons_zero, Option.some.injEq] at ho
    subst ho
    exact (h0 t ht).2
  | succ n =>
    rw [List.getElem?_cons_succ] at ho
    have := BchLevels.each hcanon hord hf (fun k hk => (List.max?_eq_some_iff.1 h1).2 k hk)
      (P := fun n op => legCount neither op = 0 ∧ legCount (lowers true) op + n ≤ 4) ?_
      (by simpa using (bchStart_good hord h2).1) h0 h3 n out ho t ht
    · rw [show 0 + 1 + n = n + 1 by omega] at this
      exact this.2
    · rintro o i a b scale out hf ga gb hd ⟨k, hk, st, e, s, hu, hc⟩ ⟨hP1, hP2⟩ hr t ht
      obtain rfl := hu rfl
      obtain ⟨b1, b2⟩ := cluster_legs hc
      have k1 := CommutatorRun.legCount hcanon hord hf ga gb hd neither (W := 0) (fun _ _ _ => Nat.zero_le _) (fun _ _ _ => Nat.zero_le _) hr t ht
      have k2 := CommutatorRun.legCount hcanon hord hf ga gb hd (lowers true)
        (fun _ _ => elementary_lowers hP1 b1 true) (fun _ _ => elementary_lowers b1 hP1 true) hr t ht
      constructor <;> omega

/-- C111: the expansion ends: all levels after the fourth are empty, whatever the amplitudes and the limits. -/
theorem C111_bch_cc_rsc (m : Machine) (hcanon : CanonContract m.canon) (hord : m.ord.Lawful) (o : Options)
    (hf : o.forCommutator = true) (levels : List Nat) (limits : List (Int × Int × Int))
    (calls : List (List (Term × Term))) (outs : List (List Term)) (h : BchRun m o levels false true limits calls outs) :
    ∀ n out, 5 ≤ n → outs[n]? = some out → out = [] := by
  intro n out hn ho
  refine List.eq_nil_iff_forall_not_mem.2 fun t ht => ?_
  have := C111_lowering m hcanon hord o hf levels limits calls outs h n out ho t ht
  omega

/-- `nested_commutator_cc` with a single determinant (`single_reference=True`, `unitary=False`) in connected mode: from level 5 on there are no
terms, whatever the order in which SymPy gives the products. -/
theorem C111_nested_commutator_cc (m : Machine) (o : Options)
    (hf : o.forCommutator = true) (level : Nat) (hlevel : 5 ≤ level) (levels : List Nat) (hk : ∀ k ∈ levels, 1 ≤ k)
    (expansion : List (ℤ × List OpName)) (calls : List (List Term × ℚ)) (out : List Term)
    (h : NestedRun m o level levels false true expansion calls out) : out = [] := by
  obtain ⟨all, he, hl, hc⟩ := h
  have : all = [] := by
    refine NestedLoop.empty hf ?_ hl
    intro p hp
    have hw := mem_words_of_sum he.wordSum he.words he.coeff hp
    obtain ⟨h1, h2, h3⟩ := nestedWords_mem hw
    refine ⟨h1, by omega, ?_, nestedWords_noX hw⟩
    intro x hx
    cases hxh : x.isH with
    | true => rcases (h3 x hx).1 hxh with rfl | rfl <;> simp [OpName.bodies]
    | false => exact ⟨by simp, hk _ ((h3 x hx).2 hxh)⟩
  subst this
  exact List.eq_nil_iff_forall_not_mem.2 fun t ht => combine_all (P := fun _ => False) (fun _ _ h => h) (by simp) hc t ht

/-- The hypotheses of C110 can be met: the two-body Hamiltonian and a two-body amplitude with eight operators have a commutator. -/
theorem C110_example : ∃ (h t : Term) (o : Options), LibraryTerm exMachine h ∧ LibraryTerm exMachine t ∧ DisjointLabels h t ∧
    nLegs h.sqOp + nLegs t.sqOp = 8 ∧ o.forCommutator = true ∧ (∃ out, CommutatorRun exMachine o h t 1 out) ∧
    (∃ calls outs, BchRun exMachine o [1, 2] true false [(2, 0, 8), (2, 0, 8)] calls outs) := by
  obtain ⟨c, l, p⟩ := exMachine_ok
  obtain ⟨h, x, hh, hx, -⟩ := C38_hamiltonian 2 0 .spinOrbital
  obtain ⟨t, ht⟩ := cluster_total 2 4 true 1 false
  have a := LibraryTerm.hamiltonian (m := exMachine) 2 0 h (by decide) hh
  have b := LibraryTerm.amplitude (m := exMachine) 2 4 true 1 false t (by decide) ht
  have gh := hamiltonian_good_from hh
  have gt := cluster_good ht
  have hd : DisjointLabels h t := disjointLabels_of_numbers (N := 4) (fun i hi => by have := gh.2.2.2.2.2 i hi; omega) (fun i hi => by have := gt.2.2.2.2.2 i hi; omega)
  let o : Options := { maxCu := 2, maxOpen := 8, minOpen := 0, forCommutator := true, expandHole := true, nProcess := 2, hermitian := true }
  refine ⟨h, t, o, a, b, hd, ?_, rfl, (C76_single_commutator _ c l p o (by decide) h t a b hd 1).2,
    (C76_bch_cc_rsc _ c l p o (by decide) [1, 2] (by simp) (by simp) true false _).2⟩
  unfold nLegs
  rw [gh.2.2.2.1, gh.2.2.2.2.1, gt.2.2.2.1, gt.2.2.2.2.1]

/-- The hypotheses of C111 can be met: `bch_cc_rsc` for singles and doubles has results, and for two amplitudes without common labels there is a
commutator. -/
theorem C111_example : ∃ (o : Options) (a b : Term), o.forCommutator = true ∧
    clusterOperator 1 0 true ['T'] 1 (holeSpace true) (particleSpace true) .spinOrbital = .ok a ∧
    clusterOperator 2 4 true ['T'] 1 (holeSpace true) (particleSpace true) .spinOrbital = .ok b ∧ DisjointLabels a b ∧
    (∃ out, CommutatorRun exMachine o a b 1 out) ∧
    (∃ calls outs, BchRun exMachine o [1, 2] false true [(0, 0, 8), (0, 0, 8), (0, 0, 8), (0, 0, 8), (0, 0, 8)] calls outs ∧ outs.length = 6) := by
  obtain ⟨c, l, p⟩ := exMachine_ok
  obtain ⟨a, ha⟩ := cluster_total 1 0 true 1 true
  obtain ⟨b, hb⟩ := cluster_total 2 4 true 1 true
  have la := LibraryTerm.amplitude (m := exMachine) 1 0 true 1 true a (by decide) ha
  have lb := LibraryTerm.amplitude (m := exMachine) 2 4 true 1 true b (by decide) hb
  have ga := cluster_good ha
  have gb := cluster_good hb
  have hd : DisjointLabels a b := disjointLabels_of_numbers (N := 4) (fun i hi => by have := ga.2.2.2.2.2 i hi; omega) (fun i hi => by have := gb.2.2.2.2.2 i hi; omega)
  let o : Options := { maxCu := 0, maxOpen := 8, minOpen := 0, forCommutator := true, expandHole := true, nProcess := 1, hermitian := true }
  obtain ⟨calls, outs, hr⟩ := (C76_bch_cc_rsc _ c l p o (by decide) [1, 2] (by simp) (by simp) false true
    [(0, 0, 8), (0, 0, 8), (0, 0, 8), (0, 0, 8), (0, 0, 8)]).2
  refine ⟨o, a, b, rfl, ha, hb, hd, (C76_single_commutator _ c l p o (by decide) a b la lb hd 1).2, calls, outs, hr, ?_⟩
  obtain ⟨K, start, rest, -, -, h3, rfl⟩ := hr
  obtain ⟨_, _, _, _, _, _, _, -, -, -, -, -, h3, -, rfl⟩ := h3
  obtain ⟨_, _, _, _, _, _, _, -, -, -, -, -, h3, -, rfl⟩ := h3
  obtain ⟨_, _, _, _, _, _, _, -, -, -, -, -, h3, -, rfl⟩ := h3
  obtain ⟨_, _, _, _, _, _, _, -, -, -, -, -, h3, -, rfl⟩ := h3
  obtain ⟨_, _, _, _, _, _, _, -, -, -, -, -, h3, -, rfl⟩ := h3
  obtain ⟨-, rfl⟩ := h3
  rfl

/-- `nested_commutator_cc` runs at level 5 for a single determinant. -/
theorem C111_example_nested : ∃ (o : Options), o.forCommutator = true ∧
    ∃ expansion calls out, NestedRun exMachine o 5 [1, 2] false true expansion calls out := by
  obtain ⟨c, l, p⟩ := exMachine_ok
  let o : Options := { maxCu := 0, maxOpen := 8, minOpen := 0, forCommutator := true, expandHole := true, nProcess := 1, hermitian := true }
  obtain ⟨-, ⟨e, he⟩, hrun⟩ := C76_nested_commutator_cc _ c l p o (by decide) 5 [1, 2] (by simp) false true
  exact ⟨o, rfl, e, hrun e he⟩

end Dsrg
