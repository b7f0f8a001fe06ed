import Verif.Lemmas.NetExcitation
import Verif.Lemmas.NetExcitationNested
import Verif.Props.Rank
import Verif.Props.Similarity

/-!
C113: with a single determinant commutators keep the excitation, and the energy has contributions of at most two amplitudes.
-/

namespace Dsrg

/-- C113: if the labels of two terms are core and virtual ones, every term of their commutator has the excitation of the two together. -/
theorem C113_single_commutator (m : Machine) (hcanon : CanonContract m.canon) (hord : m.ord.Lawful) (hcpu : 1 ≤ m.cpus) (o : Options)
    (hn : 1 ≤ o.nProcess) (hf : o.forCommutator = true) (a b : Term) (ha : LibraryTerm m a) (hb : LibraryTerm m b) (hd : DisjointLabels a b)
    (hab : ∀ i, i ∈ a.sqOp.upper.list ++ a.sqOp.lower.list ∨ i ∈ b.sqOp.upper.list ++ b.sqOp.lower.list → i.space.kind = .c ∨ i.space.kind = .v)
    (scale : ℚ) (out : List Term) (hr : CommutatorRun m o a b scale out) : ∀ t ∈ out,
      (nRaising t.sqOp : ℤ) - nLowering t.sqOp =
        ((nRaising a.sqOp : ℤ) - nLowering a.sqOp) + ((nRaising b.sqOp : ℤ) - nLowering b.sqOp) := by
  have key : ∀ op : SqOp, (∀ i ∈ op.upper.list ++ op.lower.list, i.space.kind = .c ∨ i.space.kind = .v) → legCount neither op = 0 := by
    intro op h
    refine legCount_zero.2 ⟨fun i hi => ?_, fun i hi => ?_⟩
    · rcases h i (List.mem_append_left _ hi) with e | e <;> simp [neither, e]
    · rcases h i (List.mem_append_right _ hi) with e | e <;> simp [neither, e]
  intro t ht
  have := CommutatorRun.balance hcanon hord hcpu hn hf (ha.nice hcanon hord hcpu) (hb.nice hcanon hord hcpu) hd (key _ fun i hi => hab i (Or.inl hi))
    (key _ fun i hi => hab i (Or.inr hi)) hr t ht
  unfold Balanced at this
  simp only [nRaising_eq, nLowering_eq]
  omega

theorem BchRun.excited {m : Machine} (hcanon : CanonContract m.canon) (hord : m.ord.Lawful) (hcpu : 1 ≤ m.cpus) {o : Options}
    (hn : 1 ≤ o.nProcess) (hf : o.forCommutator = true) {levels : List Nat} (hk : ∀ k ∈ levels, 1 ≤ k) {limits : List (Int × Int × Int)}
    {calls : List (List (Term × Term))} {outs : List (List Term)} (h : BchRun m o levels false true limits calls outs) :
    ∀ n out, outs[n]? = some out → ∀ t ∈ out, Excited n t := by
  obtain ⟨maxLevel, start, rest, h1, h2, h3, rfl⟩ := h
  intro n out ho t ht
  have hs := bchStart_legs hord h2
  have h0 : ∀ t ∈ start, Excited 0 t := by
    intro t ht
    refine ⟨(hs t ht).2, Nat.zero_le _, ?_⟩
    rw [amplitudeLegs_zero (ofOrder_bchStart hord h2 t ht)]
    have := legCount_le (lowers true) t.sqOp
    have := (hs t ht).1
    omega
  cases n with
  | zero =>
    simp only [List.getElem?_cons_zero, Option.some.injEq] at ho
    subst ho
    exact h0 t ht
  | succ n =>
    rw [List.getElem?_cons_succ] at ho
    have := BchLevels.excited hcanon hord hcpu hn hf hk (fun k hk => (List.max?_eq_some_iff.1 h1).2 k hk)
      (by simpa using (bchStart_good hord h2).1) (bchStart_nice hord h2) h0 h3 n out ho t ht
    rwa [show 0 + 1 + n = n + 1 by omega] at this

/-- C113: in coupled cluster theory with a single determinant, the operators of a term of any level of `bch_cc_rsc` raise the excitation by that
of its amplitudes, less at most four (two electrons moved back by the Hamiltonian). -/
theorem C113_bch_cc_rsc (m : Machine) (hcanon : CanonContract m.canon) (hord : m.ord.Lawful) (hcpu : 1 ≤ m.cpus) (o : Options)
    (hn : 1 ≤ o.nProcess) (hf : o.forCommutator = true) (levels : List Nat) (hk : ∀ k ∈ levels, 1 ≤ k) (limits : List (Int × Int × Int))
    (calls : List (List (Term × Term))) (outs : List (List Term)) (h : BchRun m o levels false true limits calls outs) :
    ∀ n out, outs[n]? = some out → ∀ t ∈ out,
      2 * n ≤ amplitudeLegs t.tensors ∧ amplitudeLegs t.tensors + nLowering t.sqOp ≤ nRaising t.sqOp + 4 := by
  intro n out ho t ht
  have := BchRun.excited hcanon hord hcpu hn hf hk h n out ho t ht
  rw [nRaising_eq, nLowering_eq]
  exact ⟨this.many, this.net⟩

/-- C113: the energy: terms without operators occur in levels 0, 1 and 2 only, and their amplitudes have at most four labels together: one
amplitude of singles or doubles, or two of singles. -/
theorem C113_energy (m : Machine) (hcanon : CanonContract m.canon) (hord : m.ord.Lawful) (hcpu : 1 ≤ m.cpus) (o : Options)
    (hn : 1 ≤ o.nProcess) (hf : o.forCommutator = true) (levels : List Nat) (hk : ∀ k ∈ levels, 1 ≤ k) (limits : List (Int × Int × Int))
    (calls : List (List (Term × Term))) (outs : List (List Term)) (h : BchRun m o levels false true limits calls outs) :
    ∀ n out, outs[n]? = some out → ∀ t ∈ out, t.sqOp.upper.list = [] → t.sqOp.lower.list = [] →
      n ≤ 2 ∧ amplitudeLegs t.tensors ≤ 4 := by
  intro n out ho t ht e1 e2
  obtain ⟨a, b⟩ := C113_bch_cc_rsc m hcanon hord hcpu o hn hf levels hk limits calls outs h n out ho t ht
  have : nRaising t.sqOp = 0 := by unfold nRaising; rw [e1, e2]; rfl
  omega

/-- C113 (`nested_commutator_cc`, with connected contractions only and with all contractions): a term has at most four operators less than its
amplitudes have labels, so that terms without operators occur in levels 1 and 2 only, with amplitudes of at most four labels together. -/
theorem C113_nested_commutator_cc (m : Machine) (hcanon : CanonContract m.canon) (hord : m.ord.Lawful) (hcpu : 1 ≤ m.cpus) (o : Options)
    (hn : 1 ≤ o.nProcess) (level : Nat) (levels : List Nat) (hk : ∀ k ∈ levels, 1 ≤ k)
    (expansion : List (ℤ × List OpName)) (calls : List (List Term × ℚ)) (out : List Term)
    (h : NestedRun m o level levels false true expansion calls out) : ∀ t ∈ out,
      (2 * level ≤ amplitudeLegs t.tensors ∧ amplitudeLegs t.tensors ≤ nLegs t.sqOp + 4) ∧
      (t.sqOp.upper.list = [] → t.sqOp.lower.list = [] → level ≤ 2 ∧ amplitudeLegs t.tensors ≤ 4) := by
  obtain ⟨all, he, hl, hc⟩ := h
  have key : ∀ t ∈ all, 2 * max 1 level ≤ amplitudeLegs t.tensors ∧ amplitudeLegs t.tensors ≤ nLegs t.sqOp + 4 := by
    refine NestedLoop.left hcanon hord hcpu hn (le_max_left _ _) ?_ hl
    intro p hp
    have hw := mem_words_of_sum he.wordSum he.words he.coeff hp
    obtain ⟨h1, h2, h3⟩ := nestedWords_mem hw
    refine ⟨h1, h2, ?_, nestedWords_noX hw⟩
    intro x hx
    cases hxh : x.isH with
    | true => rcases (h3 x hx).1 hxh with rfl | rfl <;> simp [OpName.bodies]
    | false => exact ⟨by simp, hk _ ((h3 x hx).2 hxh)⟩
  intro t ht
  obtain ⟨a, b⟩ := combine_all (P := fun t => 2 * max 1 level ≤ amplitudeLegs t.tensors ∧ amplitudeLegs t.tensors ≤ nLegs t.sqOp + 4) (fun _ _ h => h) key hc t ht
  refine ⟨⟨by omega, b⟩, fun e1 e2 => ?_⟩
  have : nLegs t.sqOp = 0 := by unfold nLegs; rw [e1, e2]; rfl
  omega

section
variable {O R A : Type} [Fintype O] [DecidableEq O] [Inhabited O] [CommRing R] [Algebra ℚ R] [Ring A] [Algebra R A]

/-- The expectation value of three and more nested commutators of the Hamiltonian and excitation operators in the determinant is zero. -/
theorem C113_three_commutators (m : Machine) (hcanon : CanonContract m.canon) (hord : m.ord.Lawful) (hcpu : 1 ≤ m.cpus)
    (levels : List Nat) (K : Nat) (hK : levels.max? = some K) (hk : ∀ k ∈ levels, 1 ≤ k)
    (hsize : 4 * (K.factorial ^ 2) ^ 5 * Nat.factorial 5 ≤ 10 ^ 15)
    (orb : Orbitals O) (I : Interp O R A) {hermitian : Bool} (hI : I.SlotSymmetric true hermitian) (hph : I.Physical orb) (hac : I.ActiveCumulants orb)
    (hna : I.NoActiveAmplitudes orb) (field : Bool × O → A) (hfield : Fermions field) (hno : I.NormalOrdered field) [Algebra ℚ A] [IsScalarTower ℚ R A]
    (mean : A →ₗ[R] R) (hmean : IsCumulantOf I.contraction field mean) (n : Nat) (hn : 3 ≤ n) :
    mean (nestedCommutator
      (I.hamiltonianPart (Finset.univ.filter fun o => orb.spin o = false ∧ orb.elem o ≠ .active) 1 +
        I.hamiltonianPart (Finset.univ.filter fun o => orb.spin o = false ∧ orb.elem o ≠ .active) 2)
      (I.generator orb true false levels) n) = 0 := by
  by_cases h5 : 5 ≤ n
  · have hz := nestedCommutator_zero (C112_five_commutators m hcanon hord hcpu levels K hK hk hsize orb I hI hph hac hna field hfield hno) (n - 5)
    rw [show 5 + (n - 5) = n by omega] at hz
    rw [hz, map_zero]
  · let o : Options := { maxCu := 0, maxOpen := 0, minOpen := 0, forCommutator := true, expandHole := true, nProcess := 1, hermitian := hermitian }
    have hne : levels ≠ [] := by
      rintro rfl
      cases hK
    let limits : List (Int × Int × Int) := List.replicate 5 (0, 0, ((4 + 2 * K * 5 : Nat) : Int))
    obtain ⟨calls, outs, h⟩ := (C76_bch_cc_rsc m hcanon hord hcpu o (le_refl 1) levels hne hk false true limits).2
    obtain ⟨out, h1, h2⟩ := C79_level m hcanon hord o levels K hK false true limits (by simpa [limits] using hsize) calls outs h orb I hI hph hac hna
      field hfield hno (wideLimits_replicate (le_refl _)) n (by simp [limits]; omega)
    obtain ⟨m0, m1⟩ := (C103_cumulants I (hI.1 rfl) (hph.hole _) field hfield hno mean).1 hmean
    have h3 := mean_list hno m0 m1 orb out
    have h4 : (out.filter fun t => t.sqOp.upper.list = [] ∧ t.sqOp.lower.list = []) = [] := by
      refine List.filter_eq_nil_iff.2 fun t ht => ?_
      simp only [decide_eq_true_eq, not_and]
      intro e1 e2
      have := (C113_energy m hcanon hord hcpu o (le_refl 1) rfl levels hk limits calls outs h n out h1 t ht e1 e2).1
      omega
    rw [h4, h2, map_smul, algebraMap_smul] at h3
    exact (smul_eq_zero.1 h3.symm).resolve_left (by positivity)

/-- C113: two levels of `bch_cc_rsc` give the exact energy of coupled cluster theory with a single determinant: their terms without operators add
up to the expectation value of `exp(-T) H exp(T)`.  Further levels change nothing. -/
theorem C113_coupled_cluster_energy (m : Machine) (hcanon : CanonContract m.canon) (hord : m.ord.Lawful) (hcpu : 1 ≤ m.cpus) (o : Options)
    (levels : List Nat) (K : Nat) (hK : levels.max? = some K) (hk : ∀ k ∈ levels, 1 ≤ k) (limits : List (Int × Int × Int)) (h2 : 2 ≤ limits.length)
    (hsize : 4 * (K.factorial ^ 2) ^ (max 5 limits.length) * (max 5 limits.length).factorial ≤ 10 ^ 15)
    (calls : List (List (Term × Term))) (outs : List (List Term)) (h : BchRun m o levels false true limits calls outs)
    (orb : Orbitals O) (hact : ∀ x, orb.elem x ≠ .active)
    (I : Interp O R A) (hI : I.SlotSymmetric true o.hermitian) (hph : I.Physical orb) (hac : I.ActiveCumulants orb)
    (field : Bool × O → A) (hfield : Fermions field) (hno : I.NormalOrdered field)
    (hw : WideLimits I K 4 limits) (hna : I.NoActiveAmplitudes orb) [Algebra ℚ A] [IsScalarTower ℚ R A]
    (mean : A →ₗ[R] R) (hmean : IsCumulantOf I.contraction field mean) :
    ((outs.flatten.filter fun t => t.sqOp.upper.list = [] ∧ t.sqOp.lower.list = []).map (I.number orb)).sum =
      mean (IsNilpotent.exp (-I.generator orb true false levels) *
        (I.hamiltonianPart (Finset.univ.filter fun x => orb.spin x = false) 1 + I.hamiltonianPart (Finset.univ.filter fun x => orb.spin x = false) 2) *
        IsNilpotent.exp (I.generator orb true false levels)) := by
  have mono : ∀ n, n ≤ max 5 limits.length → 4 * (K.factorial ^ 2) ^ n * n.factorial ≤ 10 ^ 15 := fun n hn =>
    le_trans (Nat.mul_le_mul (Nat.mul_le_mul_left 4 (Nat.pow_le_pow_right (Nat.pow_pos (Nat.factorial_pos K)) hn)) (Nat.factorial_le hn)) hsize
  obtain ⟨m0, m1⟩ := (C103_cumulants I (hI.1 rfl) (hph.hole _) field hfield hno mean).1 hmean
  have hnil := generator_nilpotent hph hac hfield hno hk
  have h5 := C112_five_commutators m hcanon hord hcpu levels K hK hk (mono 5 (le_max_left _ _)) orb I hI hph hac hna field hfield hno
  have h3 := C113_three_commutators m hcanon hord hcpu levels K hK hk (mono 5 (le_max_left _ _)) orb I hI hph hac hna field hfield hno mean hmean
  rw [mean_list hno m0 m1,
    C79_sum m hcanon hord o levels K hK false true limits (mono _ (le_max_right _ _)) calls outs h orb I hI hph hac hna field hfield hno hw]
  have e : (Finset.univ.filter fun x => orb.spin x = false ∧ orb.elem x ≠ .active) = Finset.univ.filter fun x => orb.spin x = false :=
    Finset.filter_congr fun x _ => by simp [hact x]
  rw [e] at h5 h3 ⊢
  rw [similarity hnil h5, map_sum, map_sum]
  have cut : ∀ (N : Nat) (f : Nat → R), 3 ≤ N → (∀ n, 3 ≤ n → f n = 0) → ∑ n ∈ Finset.range N, f n = ∑ n ∈ Finset.range 3, f n := by
    intro N f hN hf
    refine (Finset.sum_subset (Finset.range_subset_range.2 hN) fun n _ hn => hf n (by simpa using hn)).symm
  rw [cut _ _ (by omega) fun n hn => by rw [map_smul, h3 n hn, smul_zero], cut 5 _ (by omega) fun n hn => by
    rw [← algebraMap_smul R, map_smul, h3 n hn, smul_zero]]
  refine Finset.sum_congr rfl fun n _ => ?_
  rw [algebraMap_smul, one_div]

end

/-- The hypotheses of C113 can be met: `bch_cc_rsc` for singles and doubles has results; and two amplitudes without common labels, with core and
virtual labels only, one of them a de-excitation, have a commutator. -/
theorem C113_example : ∃ (o : Options) (a b : Term), 1 ≤ o.nProcess ∧ o.forCommutator = true ∧ LibraryTerm exMachine a ∧ LibraryTerm exMachine b ∧
    DisjointLabels a b ∧
    (∀ i, i ∈ a.sqOp.upper.list ++ a.sqOp.lower.list ∨ i ∈ b.sqOp.upper.list ++ b.sqOp.lower.list → i.space.kind = .c ∨ i.space.kind = .v) ∧
    (∃ out, CommutatorRun exMachine o a b 1 out) ∧
    (∃ calls outs, BchRun exMachine o [1, 2] false true [(0, 0, 8), (0, 0, 8), (0, 0, 8), (0, 0, 8)] calls outs) := by
  obtain ⟨c, l, p⟩ := exMachine_ok
  obtain ⟨a, ha⟩ := cluster_total 1 0 false 1 true
  obtain ⟨b, hb⟩ := cluster_total 2 4 true 1 true
  have la := LibraryTerm.amplitude (m := exMachine) 1 0 false 1 true a (by decide) ha
  have lb := LibraryTerm.amplitude (m := exMachine) 2 4 true 1 true b (by decide) hb
  have ga := cluster_good ha
  have gb := cluster_good hb
  have hd : DisjointLabels a b := disjointLabels_of_numbers (N := 4) (fun i hi => by have := ga.2.2.2.2.2 i hi; omega) (fun i hi => by have := gb.2.2.2.2.2 i hi; omega)
  let o : Options := { maxCu := 2, maxOpen := 8, minOpen := 0, forCommutator := true, expandHole := true, nProcess := 2, hermitian := true }
  refine ⟨o, a, b, by decide, rfl, la, lb, hd, ?_, (C76_single_commutator _ c l p o (by decide) a b la lb hd 1).2,
    (C76_bch_cc_rsc _ c l p o (by decide) [1, 2] (by simp) (by simp) false true _).2⟩
  have key : ∀ op : SqOp, legCount neither op = 0 → ∀ i ∈ op.upper.list ++ op.lower.list, i.space.kind = .c ∨ i.space.kind = .v := by
    intro op ho i hi
    obtain ⟨h1, h2⟩ := legCount_zero.1 ho
    have h3 : neither true i.space = false := by
      rcases List.mem_append.1 hi with hi | hi
      · exact h1 i hi
      · exact h2 i hi
    unfold neither at h3
    simp only [decide_eq_false_iff_not] at h3
    tauto
  rintro i (hi | hi)
  · exact key _ (cluster_legs ha).1 i hi
  · exact key _ (cluster_legs hb).1 i hi

/-- The hypotheses of C113 for the energy can be met: two levels with one-body amplitudes and two orbitals.  The energy of the first commutator does
not vanish. -/
theorem C113_example_energy : ∃ (o : Options) (calls : List (List (Term × Term))) (outs : List (List Term)),
    BchRun exMachine o [1] false true [(1, 0, 4), (1, 0, 4)] calls outs ∧
    WideLimits fockSpace 1 4 [(1, 0, 4), (1, 0, 4)] ∧ 4 * (Nat.factorial 1 ^ 2) ^ 5 * Nat.factorial 5 ≤ 10 ^ 15 ∧
    (∀ x, coreVirtual.elem x ≠ .active) ∧
    fockSpace.SlotSymmetric true o.hermitian ∧ fockSpace.Physical coreVirtual ∧ fockSpace.ActiveCumulants coreVirtual ∧
    fockSpace.NoActiveAmplitudes coreVirtual ∧ Fermions twoFermions ∧ fockSpace.NormalOrdered twoFermions ∧
    IsCumulantOf fockSpace.contraction twoFermions determinantMean ∧
    determinantMean (nestedCommutator
      (fockSpace.hamiltonianPart (Finset.univ.filter fun o => coreVirtual.spin o = false) 1 +
        fockSpace.hamiltonianPart (Finset.univ.filter fun o => coreVirtual.spin o = false) 2)
      (fockSpace.generator coreVirtual true false [1]) 1) ≠ 0 := by
  obtain ⟨c, l, p⟩ := exMachine_ok
  let o : Options := { maxCu := 1, maxOpen := 8, minOpen := 0, forCommutator := true, expandHole := true, nProcess := 2, hermitian := true }
  obtain ⟨calls, outs, h⟩ := (C76_bch_cc_rsc _ c l p o (by decide) [1] (by simp) (by simp) false true [(1, 0, 4), (1, 0, 4)]).2
  obtain ⟨w1, w2, w3, w4, w5⟩ := fockSpace_world
  refine ⟨o, calls, outs, h, ?_, by decide, by decide, w1, w2, w3, w4, twoFermions_fermions, fockSpace_normalOrdered, C112_example_energy.1,
    C112_example_energy.2.2.2.2⟩
  simp [WideLimits, w5]

/-- `nested_commutator_cc` runs at every level for a single determinant, in both modes. -/
theorem C113_example_nested : ∀ (connected : Bool) (level : Nat), ∃ (o : Options), o.forCommutator = connected ∧ 1 ≤ o.nProcess ∧
    ∃ expansion calls out, NestedRun exMachine o level [1, 2] false true expansion calls out := by
  intro connected level
  obtain ⟨c, l, p⟩ := exMachine_ok
  let o : Options := { maxCu := 0, maxOpen := 8, minOpen := 0, forCommutator := connected, expandHole := true, nProcess := 1, hermitian := true }
  obtain ⟨-, ⟨e, he⟩, hrun⟩ := C76_nested_commutator_cc _ c l p o (le_refl 1) level [1, 2] (by simp) false true
  exact ⟨o, rfl, le_refl 1, e, hrun e he⟩

end Dsrg
