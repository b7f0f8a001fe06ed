import Verif.Props.SpinCases
import Verif.Lemmas.SpinTotal
import Verif.Lemmas.TermHistory
import Verif.Props.Commutators

/-!
C59 for the terms that a user can build with the library: `generate_spin_cases_naive` never fails and leaves nothing out.
-/

namespace Dsrg

theorem spinCases_labelings (m : Machine) (hcanon : CanonContract m.canon) (hord : m.ord.Lawful) {t : Term} (hn : NiceTerm t) (hdis : Distinct t) :
    ∃ rs, t.generateSpinCasesNaive m.canon m.ord = .ok rs ∧ ∃ choices : List (Finset Index), choices.Nodup ∧
      (∀ B, B ∈ choices ↔ IsSpinLabeling t.tensors t.sqOp B) ∧
      List.Forall₂ (fun B r => (Term.make (t.tensors.map (spinTensor B)) (spinPair B t.sqOp) t.coeff >>= fun s =>
        s.canonicalize m.canon m.ord true true true) = .ok r) choices rs := by
  obtain ⟨ts, op, c, ht, hop, hts, -, hd, -⟩ := printable_of_nice hn hdis
  have hkind : ∀ x ∈ t.tensors, ∀ y ∈ t.tensors, x.name = y.name → x.cls = y.cls := fun x hx y hy e =>
    ((hn.1.kind x hx).consistent (hn.1.kind y hy) e).1
  have hdiag : diagonalOf t.tensors t.sqOp = ∅ := by
    obtain ⟨-, -, -, e⟩ := Term.make_ok.1 ht
    rw [e] at hd ⊢
    rw [← hd]
    ext i
    rw [mem_diagonalOf]
    show _ ↔ i ∈ diagonalOf ts op
    rw [mem_diagonalOf]
    simp only [(sortTensors_perm ts).mem_iff]
  obtain ⟨rs, hrs⟩ := spinCases_total hcanon hord hn.2.sound hn.1.tidy.toPaired hn.overlapping hn.2.keep hkind hdiag
  obtain ⟨-, choices, k1, k2, k3, -⟩ := spinCases_choices ht hop hts hrs
  have hc : c = t.coeff := by obtain ⟨-, -, -, e⟩ := Term.make_ok.1 ht; rw [e]
  subst hc
  refine ⟨rs, hrs, choices, k1, k2, ?_⟩
  rw [k3]
  have : ∀ l : List (Finset Index), (∀ B ∈ l, B ∈ choices) → List.Forall₂ (fun B r => spinRow m.canon m.ord t.coeff (spinPair B t.sqOp)
      (t.tensors.map (spinTensor B)) = .ok r) l
      (l.filterMap fun B => (spinRow m.canon m.ord t.coeff (spinPair B t.sqOp) (t.tensors.map (spinTensor B))).toOption) := by
    intro l
    induction l with
    | nil => intro _; exact .nil
    | cons B l ih =>
      intro hl
      obtain ⟨r, hr⟩ := spinRow_total hcanon hord t.coeff hn.2.sound hn.1.tidy.toPaired hn.overlapping hn.2.keep hkind hdiag
        ((k2 B).1 (hl B (by simp)))
      rw [List.filterMap_cons, hr]
      exact .cons hr (ih fun B hB => hl B (by simp [hB]))
  exact this choices fun _ h => h

/-- For a term built with the library the call returns: one canonical form for every consistent, spin-conserving spin labeling. -/
theorem C59_library_labelings (m : Machine) (hcanon : CanonContract m.canon) (hord : m.ord.Lawful) (hcpu : 1 ≤ m.cpus) (t : Term)
    (h : LibraryTerm m t) : ∃ rs, t.generateSpinCasesNaive m.canon m.ord = .ok rs ∧ ∃ choices : List (Finset Index), choices.Nodup ∧
      (∀ B, B ∈ choices ↔ IsSpinLabeling t.tensors t.sqOp B) ∧
      List.Forall₂ (fun B r => (Term.make (t.tensors.map (spinTensor B)) (spinPair B t.sqOp) t.coeff >>= fun s =>
        s.canonicalize m.canon m.ord true true true) = .ok r) choices rs :=
  spinCases_labelings m hcanon hord (h.nice hcanon hord hcpu) (h.distinct hcanon hord hcpu)

section
variable {O R M : Type} [Fintype O] [DecidableEq O] [Inhabited O] [CommRing R] [Algebra ℚ R] [AddCommGroup M] [Module R M]

theorem spinCases_value (m : Machine) (hcanon : CanonContract m.canon) (hord : m.ord.Lawful) {t : Term} (hn : NiceTerm t) (hdis : Distinct t)
    (hc : ¬ Negligible t.coeff) : ∃ rs, t.generateSpinCasesNaive m.canon m.ord = .ok rs ∧
      ∀ (orb : Orbitals O) (I : Interp O R M), I.Antisymmetric → I.Hermitian → I.SpinConserving orb → I.Physical orb → I.ActiveCumulants orb →
        I.NoActiveAmplitudes orb →
        (rs.map fun r => I.value orb r.coeff r.tensors r.sqOp).sum = I.value orb.spinOrbital t.coeff t.tensors t.sqOp := by
  obtain ⟨ts, op, c, ht, hop, hts, -, hd, -⟩ := printable_of_nice hn hdis
  obtain ⟨rs, hrs, choices, -, k2, k3⟩ := spinCases_labelings m hcanon hord hn hdis
  obtain ⟨-, -, -, e⟩ := Term.make_ok.1 ht
  have hcc : c = t.coeff := by rw [e]
  have hoo : op = t.sqOp := by rw [e]
  have hperm : t.tensors.Perm ts := by rw [e]; exact sortTensors_perm ts
  clear e
  subst hcc hoo
  refine ⟨rs, hrs, fun orb I h1 h2 h3 h4 h5 h6 => ?_⟩
  rw [I.value_perm orb.spinOrbital t.coeff hperm t.sqOp]
  refine C59_value_partial m.canon hcanon m.ord hord ts t.sqOp t.coeff t ht hop hts rs hrs (hn.1.tidy.toPaired.perm hperm).separated ?_ ?_ ?_
    orb I h1 h2 h3 h4 h5 h6
  · unfold Negligible at hc
    by_cases h0 : t.coeff = 0
    · exact Or.inl h0
    · exact Or.inr (not_lt.1 fun hlt => hc ⟨h0, hlt⟩)
  · intro x hx y hy e
    exact ((hn.1.kind x (hperm.mem_iff.2 hx)).consistent (hn.1.kind y (hperm.mem_iff.2 hy)) e).1
  · intro B hB hbad
    have hB' : B ∈ choices := (k2 B).2 ⟨by rw [labelsOf_perm hperm]; exact hB.1, hB.2.1, fun x hx => hB.2.2 x (hperm.mem_iff.1 hx)⟩
    obtain ⟨r, -, hr⟩ := forall₂_mem_left k3 hB'
    rw [hr] at hbad
    cases hbad

/-- For a term built with the library the call returns, and the spin cases add up to the term. -/
theorem C59_library (m : Machine) (hcanon : CanonContract m.canon) (hord : m.ord.Lawful) (hcpu : 1 ≤ m.cpus) (t : Term)
    (h : LibraryTerm m t) (hc : ¬ Negligible t.coeff) : ∃ rs, t.generateSpinCasesNaive m.canon m.ord = .ok rs ∧
      ∀ (orb : Orbitals O) (I : Interp O R M), I.Antisymmetric → I.Hermitian → I.SpinConserving orb → I.Physical orb → I.ActiveCumulants orb →
        I.NoActiveAmplitudes orb →
        (rs.map fun r => I.value orb r.coeff r.tensors r.sqOp).sum = I.value orb.spinOrbital t.coeff t.tensors t.sqOp :=
  spinCases_value m hcanon hord (h.nice hcanon hord hcpu) (h.distinct hcanon hord hcpu) hc

end

/-- The hypotheses are met: the Hamiltonian `H^{g0 g1}_{g2 g3}`, with its six spin cases. -/
theorem C59_library_example : ∃ t, LibraryTerm exMachine t ∧ CanonContract exMachine.canon ∧ exMachine.ord.Lawful ∧ 1 ≤ exMachine.cpus ∧
    ¬ Negligible t.coeff ∧ ∃ rs, t.generateSpinCasesNaive exMachine.canon exMachine.ord = .ok rs ∧ rs.length = 6 := by
  obtain ⟨c, l, p⟩ := exMachine_ok
  obtain ⟨t, h, h'⟩ := exists_of_map (x := hamiltonianOperator 2 0 .spinOrbital)
    (f := fun t => (t.coeff, ((labelsOf t.tensors t.sqOp).powerset.filter fun B => ConservesSpin B t.sqOp ∧ ∀ x ∈ t.tensors, ConservesSpin B x.pair).card))
    (b := (1 / 4, 6)) (by decide +kernel)
  simp only [Prod.mk.injEq] at h'
  have a : LibraryTerm exMachine t := .hamiltonian 2 0 t (by decide) h
  obtain ⟨rs, h1, choices, h2, h3, h4⟩ := C59_library_labelings exMachine c l p t a
  refine ⟨t, a, c, l, p, ?_, rs, h1, ?_⟩
  · rw [h'.1]
    unfold Negligible
    norm_num
  · rw [← h4.length_eq, ← List.toFinset_card_of_nodup h2, ← h'.2]
    congr 1
    ext B
    rw [List.mem_toFinset, h3, Finset.mem_filter, Finset.mem_powerset]
    rfl

end Dsrg
