import Verif.Lemmas.ProperFactors
import Verif.Props.Total
import Verif.Props.TermObject
import Verif.Lemmas.LibraryNice

/-!
C96 for the terms of the library.
-/

namespace Dsrg

variable {O R M : Type} [Fintype O] [DecidableEq O] [Inhabited O] [CommRing R] [Algebra ℚ R] [AddCommGroup M] [Module R M]

/-- C96: a term of the library can be simplified and canonicalized again and again.  No call raises, and each returns what it returns on a
fresh copy, unless `remove_active_amplitudes` has made the term vanish. -/
theorem C96_library (m : Machine) (hcanon : CanonContract m.canon) (hord : m.ord.Lawful) (hcpu : 1 ≤ m.cpus) (t : Term) (h : LibraryTerm m t)
    (ra : Bool) (hact : ra = true → ((TermCall.simplify true).run m.canon m.ord t).1.tensors ≠ [])
    (calls : List TermCall) (hcalls : ∀ call ∈ calls, call.UsesFlag ra) :
    (runCalls m.canon m.ord t calls).2 = calls.map (fun call => (call.run m.canon m.ord t).2) ∧
      ∀ out ∈ (runCalls m.canon m.ord t calls).2, ∃ r, out = .ok r := by
  obtain ⟨hmake, hready, hobj⟩ := h.object hcanon hord hcpu
  obtain ⟨s, hs, -⟩ := hobj.simplify hord ra
  obtain ⟨k1, k2⟩ := Term.simplifyObj_ok hs
  have hne : s.tensors ≠ [] := by
    cases ra with
    | true =>
      have := hact rfl
      simp only [TermCall.run] at this
      rwa [k1] at this
    | false =>
      have e := (Term.simplify_properFactors hord hobj.wf (by rw [hobj.diag]; exact Finset.empty_subset _) hready.paired hs).resolve_left (by simp)
      intro e'
      rw [e'] at e
      obtain ⟨x, hx, hxd⟩ := hready.keep
      have hc : ∃ k, k ∈ properFactors t.tensors := by
        rw [properFactors_eq]
        refine ⟨x.sort, Multiset.mem_coe.2 (List.mem_map.2 ⟨x, List.mem_filter.2 ⟨hx, ?_⟩, rfl⟩)⟩
        unfold Tensor.proper
        cases hcl : x.cls <;> simp [Tensor.isDensity, hcl] at hxd ⊢
      obtain ⟨k, hk⟩ := hc
      rw [← e] at hk
      simp [properFactors] at hk
  have key := runCalls_fresh (canon := m.canon) hord (Sane.of_make hmake hready.paired) hs hne calls hcalls
  refine ⟨key, ?_⟩
  rw [key]
  intro out hout
  obtain ⟨call, -, rfl⟩ := List.mem_map.1 hout
  cases call with
  | simplify r =>
    obtain ⟨s', hs', -⟩ := hobj.simplify hord r
    have := (Term.simplifyObj_ok hs').2
    exact ⟨none, by simp only [TermCall.run, this]; rfl⟩
  | canonicalizeSimple r =>
    obtain ⟨r', hr'⟩ := hobj.canonicalizeSimple hord r
    exact ⟨some r', by simp only [TermCall.run, hr']; rfl⟩
  | canonicalize r herm =>
    obtain ⟨r', hr'⟩ := hobj.canonicalize hcanon hord r herm
    exact ⟨some r', by simp only [TermCall.run, hr']; rfl⟩
  | scale k => exact ⟨none, rfl⟩

/-- Whatever is called on a term of the library, with any flags and factors: the object keeps its value up to the factors, and every term
returned has the value that the object had when it was returned. -/
theorem C96_library_value (m : Machine) (hcanon : CanonContract m.canon) (hord : m.ord.Lawful) (hcpu : 1 ≤ m.cpus) (t : Term) (h : LibraryTerm m t)
    (calls : List TermCall)
    (hc : ∀ k ≤ calls.length, t.coeff * factorOf (calls.take k) = 0 ∨ 1 / 10 ^ 15 ≤ |t.coeff * factorOf (calls.take k)|)
    (orb : Orbitals O) (I : Interp O R M) (hanti : ∀ ra, TermCall.canonicalizeSimple ra ∈ calls → I.Antisymmetric)
    (hI : ∀ ra h, TermCall.canonicalize ra h ∈ calls → I.SlotSymmetric true h)
    (hph : I.Physical orb) (hac : I.ActiveCumulants orb) (hna : I.NoActiveAmplitudes orb) :
    I.value orb (runCalls m.canon m.ord t calls).1.coeff (runCalls m.canon m.ord t calls).1.tensors (runCalls m.canon m.ord t calls).1.sqOp =
        I.value orb (t.coeff * factorOf calls) t.tensors t.sqOp ∧
      ∀ (n : Nat) r, (runCalls m.canon m.ord t calls).2[n]? = some (.ok (some r)) →
        I.value orb r.coeff r.tensors r.sqOp = I.value orb (t.coeff * factorOf (calls.take n)) t.tensors t.sqOp := by
  obtain ⟨hmake, hready, -⟩ := h.object hcanon hord hcpu
  exact C96_history_partial m.canon hcanon m.ord hord t.tensors t.sqOp t.coeff t hmake hready.paired hready.sound.bal hready.kind calls hc orb I hanti
    (by rw [hready.sound.upper]; exact hI) hph hac hna

/-- The hypotheses can be met: the two-body Hamiltonian is a term of the library that does not vanish. -/
theorem C96_library_example : ∃ t, LibraryTerm exMachine t ∧ ((TermCall.simplify true).run exMachine.canon exMachine.ord t).1.tensors ≠ [] ∧
    (∀ call ∈ [TermCall.simplify true, .canonicalizeSimple true, .canonicalize true false], call.UsesFlag true) ∧ 1 / 10 ^ 15 ≤ |t.coeff| := by
  obtain ⟨c, l, p⟩ := exMachine_ok
  obtain ⟨t, x, ht, hx, hx1, -, -, -, -, -, hco⟩ := C38_hamiltonian 2 0 .spinOrbital
  have a := LibraryTerm.hamiltonian (m := exMachine) 2 0 t (by decide) ht
  refine ⟨t, a, ?_, by simp [TermCall.UsesFlag], by rw [hco]; norm_num [Nat.factorial]⟩
  obtain ⟨-, hready, hobj⟩ := a.object c l p
  obtain ⟨s, hs, -⟩ := hobj.simplify l true
  obtain ⟨k1, -⟩ := Term.simplifyObj_ok hs
  simp only [TermCall.run]
  rw [k1]
  intro e
  have hg := hamiltonian_good_from ht
  unfold Term.simplify at hs
  obtain ⟨cu, hcu, hs⟩ := bind_ok hs
  obtain ⟨de, hde, hs⟩ := bind_ok hs
  obtain ⟨st, hlo, hs⟩ := bind_ok hs
  obtain ⟨op, hop, hs⟩ := bind_ok hs
  obtain ⟨-, -, hfil, -⟩ := Term.simplify_stage l hobj.wf (by rw [hobj.diag]; exact Finset.empty_subset _) hready.paired hcu hde hlo
  have hde2 : de.2 = [x] := by
    rw [hfil, hx]
    have : ¬ ActsAsDelta true x := by simp [ActsAsDelta, hx1]
    simp [this]
  have hno : ¬ ((true && de.2.any (allActiveAmplitude st.1)) = true) := by
    rw [hde2]
    simp [allActiveAmplitude, hx1]
  rw [if_neg hno] at hs
  obtain ⟨ts, hts, hs⟩ := bind_ok hs
  injection hs with hs
  subst hs
  obtain ⟨-, rfl, -⟩ := replaceTensors_ok (realizes_lookupIn _ _) hts
  rw [hde2] at e
  simp at e

end Dsrg
