import Verif.Lemmas.SpinCode
import Verif.Props.Program
import Verif.Props.OpenWindow

/-!
C104: the code printed for the spin cases of terms computes the operator over all spin orbitals.  C102 for the printed code.
-/

namespace Dsrg

theorem combine_not_negligible {l out : List Term} (h : combineTerms l = .ok out) : ∀ t ∈ out, ¬ Negligible t.coeff := by
  rintro t ht ⟨-, hlt⟩
  obtain ⟨hp, -⟩ := sortTerms_ok h
  obtain ⟨-, hv⟩ := List.mem_filter.1 (hp.mem_iff.1 ht)
  unfold Term.isVoid at hv
  rw [decide_eq_true hlt] at hv
  cases hv

theorem BchLevels.not_negligible {m : Machine} {o : Options} {levels : List Nat} {unitary singleRef : Bool} {maxAmp : Nat} :
    ∀ {limits : List (Int × Int × Int)} {i : Nat} {pool : List Term} {calls : List (List (Term × Term))} {outs : List (List Term)},
      BchLevels m o levels unitary singleRef maxAmp i pool limits calls outs → ∀ out ∈ outs, ∀ t ∈ out, ¬ Negligible t.coeff := by
  intro limits
  induction limits with
  | nil =>
    rintro i pool calls outs ⟨-, rfl⟩
    simp
  | cons x limits ih =>
    intro i pool calls outs h
    obtain ⟨amps, all, copies, out, pool', calls', outs', h1, h2, h3, h4, h5, h6, rfl, rfl⟩ := h
    intro out' ho
    rcases List.mem_cons.1 ho with rfl | ho
    · exact combine_not_negligible h4
    · exact ih h6 out' ho

theorem BchRun.not_negligible {m : Machine} (hord : m.ord.Lawful) {o : Options} {levels : List Nat} {unitary singleRef : Bool}
    {limits : List (Int × Int × Int)} {calls : List (List (Term × Term))} {outs : List (List Term)}
    (h : BchRun m o levels unitary singleRef limits calls outs) : ∀ out ∈ outs, ∀ t ∈ out, ¬ Negligible t.coeff := by
  obtain ⟨maxLevel, start, rest, h1, h2, h3, rfl⟩ := h
  intro out ho t ht
  rcases List.mem_cons.1 ho with rfl | ho
  · obtain ⟨n, hn⟩ := bchStart_coeff hord h2 t ht
    rw [hn]
    rintro ⟨a, b⟩
    have hn0 : n ≠ 0 := by rintro rfl; simp at a
    have h1 : (1 : ℚ) ≤ |(n : ℚ)| := by
      rw [← Int.cast_abs]
      exact_mod_cast Int.one_le_abs hn0
    rw [abs_mul, show |(1 / 4 : ℚ)| = 1 / 4 by norm_num] at b
    have : (1 : ℚ) / 10 ^ 15 ≤ 1 / 4 := by norm_num
    linarith
  · exact h3.not_negligible out ho t ht

section
variable {O R A : Type} [Fintype O] [DecidableEq O] [Inhabited O] [CommRing R] [Algebra ℚ R] [AddCommGroup A] [Module R A]

omit [Fintype O] [DecidableEq O] [Inhabited O] [Algebra ℚ R] in
theorem Interp.Physical.spinOrbital [DecidableEq O] {I : Interp O R A} {orb : Orbitals O} (h : I.Physical orb) : I.Physical orb.spinOrbital :=
  ⟨h.kron, h.dens, h.dens_core, fun _ _ _ h => absurd rfl h, h.hole⟩

omit [Fintype O] [DecidableEq O] [Inhabited O] [CommRing R] [Algebra ℚ R] [Module R A] in
theorem sum_flatten_list {α β : Type} {f : α → A} {g : β → A} {l : List α} {ls : List (List β)}
    (h : List.Forall₂ (fun a bs => (bs.map g).sum = f a) l ls) : (ls.flatten.map g).sum = (l.map f).sum := by
  induction h with
  | nil => rfl
  | cons h _ ih => rw [List.flatten_cons, List.map_append, List.sum_append, List.map_cons, List.sum_cons, h, ih]

theorem spinCases_writable (m : Machine) (hcanon : CanonContract m.canon) (hord : m.ord.Lawful) {t : Term} (h : Writable t) {rs : List Term}
    (hr : t.generateSpinCasesNaive m.canon m.ord = .ok rs) : ∀ r ∈ rs, SpinWritable r := by
  obtain ⟨rs', h1, choices, -, h3, h4⟩ := spinCases_labelings m hcanon hord h.nice h.distinct
  obtain rfl : rs' = rs := by
    have := h1.symm.trans hr
    injection this
  intro r hm
  obtain ⟨B, hB, e⟩ := forall₂_mem_right h4 hm
  exact spinRow_writable hcanon hord h t.coeff ((h3 B).1 hB) e

theorem spinCases_computes (m : Machine) (hcanon : CanonContract m.canon) (hord : m.ord.Lawful) {ts : List Term} (h : ∀ t ∈ ts, Writable t)
    (hc : ∀ t ∈ ts, ¬ Negligible t.coeff) : ∃ cases, (ts.mapM fun t => t.generateSpinCasesNaive m.canon m.ord) = .ok cases ∧
      ∀ (orb : Orbitals O) (I : Interp O R A), I.Antisymmetric → I.Hermitian → I.SpinConserving orb → I.Physical orb → I.ActiveCumulants orb →
        I.NoActiveAmplitudes orb → ∀ s : Store O R, SuppliedArrays s I →
        SpinCodeComputes orb I s cases.flatten (ts.map fun t => I.value orb.spinOrbital t.coeff t.tensors t.sqOp).sum := by
  obtain ⟨cases, hcases⟩ : ∃ cases, (ts.mapM fun t => t.generateSpinCasesNaive m.canon m.ord) = .ok cases :=
    mapM_total fun t ht => by
      obtain ⟨rs, h1, -⟩ := spinCases_labelings m hcanon hord (h t ht).nice (h t ht).distinct
      exact ⟨rs, h1⟩
  refine ⟨cases, hcases, fun orb I a1 a2 a3 a4 a5 a6 s hs => ?_⟩
  have e : (cases.flatten.map fun r => I.value orb r.coeff r.tensors r.sqOp).sum =
      (ts.map fun t => I.value orb.spinOrbital t.coeff t.tensors t.sqOp).sum := by
    refine sum_flatten_list (forall₂_imp_mem (mapM_ok_forall₂.1 hcases) fun t ht rs hr => ?_)
    obtain ⟨rs', h1, h2⟩ := spinCases_value (O := O) (R := R) (M := A) m hcanon hord (h t ht).nice (h t ht).distinct (hc t ht)
    obtain rfl : rs' = rs := by
      have := h1.symm.trans hr
      injection this
    exact h2 orb I a1 a2 a3 a4 a5 a6
  rw [← e]
  refine spinWritable_computes a1 a2 hs fun r hr => ?_
  obtain ⟨rs, h1, h2⟩ := List.mem_flatten.1 hr
  obtain ⟨t, ht, h3⟩ := forall₂_mem_right (mapM_ok_forall₂.1 hcases) h1
  exact spinCases_writable m hcanon hord (h t ht) h3 r h2

/-- C104: the spin cases of terms built with the library, without hole densities, can be generated, and the code printed for them computes the sum of
the terms over all spin orbitals. -/
theorem C104_library (m : Machine) (hcanon : CanonContract m.canon) (hord : m.ord.Lawful) (hcpu : 1 ≤ m.cpus) (ts : List Term)
    (h : ∀ t ∈ ts, LibraryTerm m t) (hh : ∀ t ∈ ts, ∀ x ∈ t.tensors, x.cls ≠ .hole) (hc : ∀ t ∈ ts, ¬ Negligible t.coeff) :
    ∃ cases, (ts.mapM fun t => t.generateSpinCasesNaive m.canon m.ord) = .ok cases ∧
      ∀ (orb : Orbitals O) (I : Interp O R A), I.Antisymmetric → I.Hermitian → I.SpinConserving orb → I.Physical orb → I.ActiveCumulants orb →
        I.NoActiveAmplitudes orb → ∀ s : Store O R, SuppliedArrays s I →
        SpinCodeComputes orb I s cases.flatten (ts.map fun t => I.value orb.spinOrbital t.coeff t.tensors t.sqOp).sum :=
  spinCases_computes m hcanon hord (fun t ht => (h t ht).writable hcanon hord hcpu (hh t ht)) hc

/-- C104: like spin cases can be combined before the code is printed, as long as no total coefficient is so small that it is taken for zero. -/
theorem C104_combined (m : Machine) (hcanon : CanonContract m.canon) (hord : m.ord.Lawful) (hcpu : 1 ≤ m.cpus) (ts : List Term)
    (h : ∀ t ∈ ts, LibraryTerm m t) (hh : ∀ t ∈ ts, ∀ x ∈ t.tensors, x.cls ≠ .hole) (hc : ∀ t ∈ ts, ¬ Negligible t.coeff)
    (cases : List (List Term)) (hcases : (ts.mapM fun t => t.generateSpinCasesNaive m.canon m.ord) = .ok cases)
    (hneg : ∀ r ∈ cases.flatten, ¬ Negligible (totalCoeff cases.flatten r)) : ∃ out, combineTerms cases.flatten = .ok out ∧
      ∀ (orb : Orbitals O) (I : Interp O R A), I.Antisymmetric → I.Hermitian → I.SpinConserving orb → I.Physical orb → I.ActiveCumulants orb →
        I.NoActiveAmplitudes orb → ∀ s : Store O R, SuppliedArrays s I →
        SpinCodeComputes orb I s out (ts.map fun t => I.value orb.spinOrbital t.coeff t.tensors t.sqOp).sum := by
  have hw : ∀ t ∈ ts, Writable t := fun t ht => (h t ht).writable hcanon hord hcpu (hh t ht)
  have hsw : ∀ r ∈ cases.flatten, SpinWritable r := by
    intro r hr
    obtain ⟨rs, h1, h2⟩ := List.mem_flatten.1 hr
    obtain ⟨t, ht, h3⟩ := forall₂_mem_right (mapM_ok_forall₂.1 hcases) h1
    exact spinCases_writable m hcanon hord (hw t ht) h3 r h2
  have hreg := spinWritable_regular hsw
  refine ⟨_, combineTerms_eq hreg, fun orb I a1 a2 a3 a4 a5 a6 s hs => ?_⟩
  have e : (cases.flatten.map fun r => I.value orb r.coeff r.tensors r.sqOp).sum =
      (ts.map fun t => I.value orb.spinOrbital t.coeff t.tensors t.sqOp).sum := by
    refine sum_flatten_list (forall₂_imp_mem (mapM_ok_forall₂.1 hcases) fun t ht rs hr => ?_)
    obtain ⟨rs', h1, h2⟩ := spinCases_value (O := O) (R := R) (M := A) m hcanon hord (hw t ht).nice (hw t ht).distinct (hc t ht)
    obtain rfl : rs' = rs := by
      have := h1.symm.trans hr
      injection this
    exact h2 orb I a1 a2 a3 a4 a5 a6
  rw [← e, ← C49_value .spinIntegrated _ hreg hneg _ (combineTerms_eq hreg) orb I]
  exact spinWritable_computes a1 a2 hs (combine_all (fun _ c h => h.coeff c) hsw (combineTerms_eq hreg))

end

section
variable {O R A : Type} [Fintype O] [DecidableEq O] [Inhabited O] [CommRing R] [Algebra ℚ R] [Ring A] [Algebra R A]

/-- C104: the code printed for the spin cases of a computation without hole densities computes the operator that the computation stands for, taken over
all spin orbitals. -/
theorem C104_program (m : Machine) (hcanon : CanonContract m.canon) (hord : m.ord.Lawful) (hcpu : 1 ≤ m.cpus) (maxCu : Int) (e : OpExpr) (ts : List Term)
    (h : Computes m maxCu e ts) (hh : ∀ t ∈ ts, ∀ x ∈ t.tensors, x.cls ≠ .hole) (hc : ∀ t ∈ ts, ¬ Negligible t.coeff) :
    ∃ cases, (ts.mapM fun t => t.generateSpinCasesNaive m.canon m.ord) = .ok cases ∧
      ∀ (orb : Orbitals O) (I : Interp O R A), I.Antisymmetric → I.Hermitian → I.SpinConserving orb → I.Physical orb → I.ActiveCumulants orb →
        I.NoActiveAmplitudes orb → ∀ field : Bool × O → A, Fermions field → I.NormalOrdered field → I.CumulantsUpTo maxCu →
        ∀ s : Store O R, SuppliedArrays s I → SpinCodeComputes orb I s cases.flatten (e.operator orb.spinOrbital I) := by
  obtain ⟨cases, h1, h2⟩ := C104_library (O := O) (R := R) (A := A) m hcanon hord hcpu ts (C100_library m maxCu e ts h) hh hc
  refine ⟨cases, h1, fun orb I a1 a2 a3 a4 a5 a6 field hfield hno hcu s hs => ?_⟩
  rw [← C100_value m hcanon hord hcpu maxCu e ts h orb.spinOrbital I a1 a2 a4.spinOrbital a5 a6 field hfield hno hcu]
  exact h2 orb I a1 a2 a3 a4 a5 a6 s hs

/-- C104 (`bch_cc_rsc`): the spin cases of the terms of level `n` can be generated, and the code printed for them computes
`1 / n! [...[[H, A], A]..., A]` over all spin orbitals. -/
theorem C104_bch_cc_rsc (m : Machine) (hcanon : CanonContract m.canon) (hord : m.ord.Lawful) (hcpu : 1 ≤ m.cpus) (o : Options) (hn : 1 ≤ o.nProcess)
    (ho : o.expandHole = true) (levels : List Nat) (hk : ∀ k ∈ levels, 1 ≤ k) (K : Nat)
    (hK : levels.max? = some K) (unitary singleRef : Bool) (limits : List (Int × Int × Int))
    (hsize : 4 * (K.factorial ^ 2) ^ limits.length * limits.length.factorial ≤ 10 ^ 15)
    (calls : List (List (Term × Term))) (outs : List (List Term)) (h : BchRun m o levels unitary singleRef limits calls outs)
    (orb : Orbitals O) (I : Interp O R A) (hI : I.Antisymmetric) (hH : I.Hermitian) (hsp : I.SpinConserving orb) (hph : I.Physical orb)
    (hac : I.ActiveCumulants orb) (hna : I.NoActiveAmplitudes orb) (field : Bool × O → A) (hfield : Fermions field) (hno : I.NormalOrdered field)
    (hw : WideLimits I K 4 limits) (s : Store O R) (hs : SuppliedArrays s I) (n : Nat) (hn' : n ≤ limits.length) :
    ∃ out cases, outs[n]? = some out ∧ (out.mapM fun t => t.generateSpinCasesNaive m.canon m.ord) = .ok cases ∧
      SpinCodeComputes orb I s cases.flatten (algebraMap ℚ R (1 / (n.factorial : ℚ)) • nestedCommutator
        (I.hamiltonianPart (Finset.univ.filter fun o => orb.elem o ≠ .active) 1 + I.hamiltonianPart (Finset.univ.filter fun o => orb.elem o ≠ .active) 2)
        (I.generator orb.spinOrbital singleRef unitary levels) n) := by
  have hS : I.SlotSymmetric true o.hermitian := ⟨fun _ => hI, fun h => (nomatch h), fun _ => hH⟩
  obtain ⟨out, h1, h2⟩ := C79_level m hcanon hord o levels K hK unitary singleRef limits hsize calls outs h orb.spinOrbital I hS hph.spinOrbital hac hna
    field hfield hno hw n hn'
  have hmem := List.mem_of_getElem? h1
  obtain ⟨cases, h3, h4⟩ := spinCases_computes (O := O) (R := R) (A := A) m hcanon hord (BchRun.writable hcanon hord hcpu hn ho hk h out hmem)
    (h.not_negligible hord out hmem)
  refine ⟨out, cases, h1, h3, ?_⟩
  have := h4 orb I hI hH hsp hph hac hna s hs
  rw [h2] at this
  have e : (Finset.univ.filter fun o => orb.spinOrbital.spin o = false ∧ orb.spinOrbital.elem o ≠ .active) =
      Finset.univ.filter fun o => orb.elem o ≠ .active := by
    ext o; simp [Orbitals.spinOrbital]
  rw [e] at this
  exact this

/-- C102 for the printed code: with limits that discard open operators, the code printed for level `n` computes the truncated commutator. -/
theorem C102_code (m : Machine) (hcanon : CanonContract m.canon) (hord : m.ord.Lawful) (hcpu : 1 ≤ m.cpus) (o : Options) (hnp : 1 ≤ o.nProcess)
    (ho : o.expandHole = true) (levels : List Nat) (hk : ∀ k ∈ levels, 1 ≤ k) (K : Nat)
    (hK : levels.max? = some K) (unitary singleRef : Bool) (limits : List (Int × Int × Int))
    (hsize : 4 * (K.factorial ^ 2) ^ limits.length * limits.length.factorial ≤ 10 ^ 15)
    (calls : List (List (Term × Term))) (outs : List (List Term)) (h : BchRun m o levels unitary singleRef limits calls outs)
    (orb : Orbitals O) (I : Interp O R A) (hI : I.Antisymmetric) (hH : I.Hermitian) (hph : I.Physical orb) (hac : I.ActiveCumulants orb)
    (hna : I.NoActiveAmplitudes orb) (field : Bool × O → A) (hfield : Fermions field) (hno : I.NormalOrdered field) (P : Nat → A →ₗ[R] A)
    (hP : ∀ j maxCu minOpen maxOpen, limits[j]? = some (maxCu, minOpen, maxOpen) →
      I.CumulantsUpTo maxCu ∧ minOpen ≤ 0 ∧ I.Truncates (P j) maxOpen minOpen) (s : Store O R) (hs : SuppliedArrays s I)
    (n : Nat) (hn : n ≤ limits.length) :
    ∃ out, outs[n]? = some out ∧ PrintedCodeComputes orb I s out (truncatedCommutator P
      (I.hamiltonianPart (Finset.univ.filter fun o => orb.spin o = false ∧ orb.elem o ≠ .active) 1 +
        I.hamiltonianPart (Finset.univ.filter fun o => orb.spin o = false ∧ orb.elem o ≠ .active) 2)
      (I.generator orb singleRef unitary levels) n) := by
  have hS : I.SlotSymmetric true o.hermitian := ⟨fun _ => hI, fun h => (nomatch h), fun _ => hH⟩
  obtain ⟨out, h1, h2⟩ := C102_bch_cc_rsc m hcanon hord o levels K hK unitary singleRef limits hsize calls outs h orb I hS hph hac hna field hfield hno P hP
    n hn
  refine ⟨out, h1, ?_⟩
  rw [← h2]
  exact writable_computes hI hH hs (BchRun.writable hcanon hord hcpu hnp ho hk h out (List.mem_of_getElem? h1))

end

/-- The hypotheses of C104 can be met: the one-body Hamiltonian of an alpha and a beta orbital. -/
theorem C104_example : ∃ t s, LibraryTerm exMachine t ∧ CanonContract exMachine.canon ∧ exMachine.ord.Lawful ∧ 1 ≤ exMachine.cpus ∧
    (∀ x ∈ t.tensors, x.cls ≠ .hole) ∧ ¬ Negligible t.coeff ∧ spinToy.Antisymmetric ∧ spinToy.Hermitian ∧ spinToy.SpinConserving alphaBeta ∧
    spinToy.Physical alphaBeta ∧ spinToy.ActiveCumulants alphaBeta ∧ spinToy.NoActiveAmplitudes alphaBeta ∧ SuppliedArrays s spinToy ∧
    spinToy.value alphaBeta.spinOrbital t.coeff t.tensors t.sqOp = 2 := by
  obtain ⟨c, l, p⟩ := exMachine_ok
  obtain ⟨t, h, h'⟩ := exists_of_map (x := hamiltonianOperator 1 0 .spinOrbital)
    (f := fun t => (t.coeff, t.tensors.map fun x => x.cls, spinToy.value alphaBeta.spinOrbital t.coeff t.tensors t.sqOp))
    (b := (1, [.hamiltonian], 2)) (by decide +kernel)
  simp only [Prod.mk.injEq] at h'
  obtain ⟨e1, e2, e3⟩ := h'
  obtain ⟨g1, g2, g3, g4, g5, g6⟩ := spinToy_good
  let s : Store (Fin 2) ℚ := fun nm os =>
    match nm with
    | 'H' :: _ => spinToy.tensor .hamiltonian ['H'] (os.take (os.length / 2)) (os.drop (os.length / 2))
    | 'T' :: _ => spinToy.tensor .cluster ['T'] (os.take (os.length / 2)) (os.drop (os.length / 2))
    | 'L' :: _ => spinToy.tensor .cumulant ['L'] (os.take (os.length / 2)) (os.drop (os.length / 2))
    | _ => 0
  have hs : SuppliedArrays s spinToy := by
    intro u l h
    have e : (u ++ l).length / 2 = u.length := by rw [List.length_append, ← h]; omega
    have e1 : (u ++ l).take ((u ++ l).length / 2) = u := by rw [e]; simp
    have e2 : (u ++ l).drop ((u ++ l).length / 2) = l := by rw [e]; simp
    refine ⟨?_, ?_, ?_⟩ <;> (simp only [s]; rw [e1, e2])
  refine ⟨t, s, .hamiltonian 1 0 t (by decide) h, c, l, p, ?_, ?_, g1, g2, g3, g4, g5, g6, hs, e3⟩
  · intro x hx hc
    have : x.cls ∈ t.tensors.map fun x => x.cls := List.mem_map_of_mem hx
    rw [e2, hc] at this
    simp at this
  · rw [e1]
    unfold Negligible
    norm_num

/-- The hypotheses of C104 for `bch_cc_rsc` can be met: the levels of the unitary transformation of the Hamiltonian of two orbitals, with one-body
amplitudes; the second commutator is not zero. -/
theorem C104_bch_example : ∃ (o : Options) (calls : List (List (Term × Term))) (outs : List (List Term)) (s : Store (Fin 2) ℚ),
    BchRun exMachine o [1] true false [(1, 0, 4), (1, 0, 4), (1, 0, 4)] calls outs ∧ 1 ≤ o.nProcess ∧ o.expandHole = true ∧
    WideLimits fockSpace 1 4 [(1, 0, 4), (1, 0, 4), (1, 0, 4)] ∧ fockSpace.Antisymmetric ∧ fockSpace.Hermitian ∧ fockSpace.SpinConserving coreVirtual ∧
    fockSpace.Physical coreVirtual ∧ fockSpace.ActiveCumulants coreVirtual ∧
    fockSpace.NoActiveAmplitudes coreVirtual ∧ Fermions twoFermions ∧ fockSpace.NormalOrdered twoFermions ∧ SuppliedArrays s fockSpace ∧
    nestedCommutator
      (fockSpace.hamiltonianPart (Finset.univ.filter fun o => coreVirtual.elem o ≠ .active) 1 +
        fockSpace.hamiltonianPart (Finset.univ.filter fun o => coreVirtual.elem o ≠ .active) 2)
      (fockSpace.generator coreVirtual.spinOrbital false true [1]) 2 ≠ 0 := by
  obtain ⟨o, calls, outs, s, h1, h2, h3, h4, h5, h6, h7, h8, h9, h10, h11, h12, -⟩ := C88_example
  refine ⟨o, calls, outs, s, h1, h2, h3, h4, h5, h6, ⟨?_, ?_⟩, h7, h8, h9, h10, h11, h12, by decide +kernel⟩
  all_goals
    intros
    rename_i hne
    exfalso
    apply hne
    rw [List.countP_eq_zero.2 (by intro a _; simp [coreVirtual]), List.countP_eq_zero.2 (by intro a _; simp [coreVirtual])]

end Dsrg
