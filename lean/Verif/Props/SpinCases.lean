import Verif.Lemmas.SpinCases
import Verif.Lemmas.PlainCanon
import Verif.Spec.Toy

/-!
Property theorems about spin integration (`generate_spin_cases_naive`).
-/

namespace Dsrg

/-! ### C59 Spin integration of a term preserves the value -/

/-- The terms are the canonical forms of the consistent, spin-conserving spin labelings of the term, each labeling once; a labeling is left
out only when its canonicalisation raises `ValueError`.  A term with diagonal labels raises. -/
theorem C59_labelings (canon : CanonFn) (ord : SetOrder) (ts : List Tensor) (op : SqOp) (c : ℚ) (t : Term) (ht : Term.make ts op c = .ok t)
    (hop : op.Constructed) (hts : ∀ x ∈ ts, x.Constructed) (rs : List Term) (h : t.generateSpinCasesNaive canon ord = .ok rs) :
    t.diag = ∅ ∧ ∃ choices : List (Finset Index), choices.Nodup ∧ (∀ B, B ∈ choices ↔ IsSpinLabeling t.tensors t.sqOp B) ∧
      rs = choices.filterMap (fun B => (Term.make (t.tensors.map (spinTensor B)) (spinPair B t.sqOp) c >>= fun r =>
        r.canonicalize canon ord true true true).toOption) ∧
      ∀ B ∈ choices, ∀ e, (Term.make (t.tensors.map (spinTensor B)) (spinPair B t.sqOp) c >>= fun r =>
        r.canonicalize canon ord true true true) = .error e → e = .valueError :=
  spinCases_choices ht hop hts h

section
variable {O R M : Type} [Fintype O] [DecidableEq O] [Inhabited O] [CommRing R] [Algebra ℚ R] [AddCommGroup M] [Module R M]

/-- The terms add up to the spin-orbital term.  Partial: no labeling is left out because its canonicalisation raises `ValueError`. -/
theorem C59_value_partial (canon : CanonFn) (hcanon : CanonContract canon) (ord : SetOrder) (hord : ord.Lawful) (ts : List Tensor) (op : SqOp)
    (c : ℚ) (t : Term) (ht : Term.make ts op c = .ok t) (hop : op.Constructed) (hts : ∀ x ∈ ts, x.Constructed) (rs : List Term)
    (h : t.generateSpinCasesNaive canon ord = .ok rs) (hsep : Separated true ts op) (hc : c = 0 ∨ 1 / 10 ^ 15 ≤ |c|)
    (hkind : ∀ x ∈ ts, ∀ y ∈ ts, x.name = y.name → x.cls = y.cls)
    (hkept : ∀ B, IsSpinLabeling ts op B → (Term.make (t.tensors.map (spinTensor B)) (spinPair B t.sqOp) c >>= fun r =>
        r.canonicalize canon ord true true true) ≠ .error .valueError)
    (orb : Orbitals O) (I : Interp O R M) (hI : I.Antisymmetric) (hH : I.Hermitian) (hsp : I.SpinConserving orb) (hph : I.Physical orb)
    (hac : I.ActiveCumulants orb) (hna : I.NoActiveAmplitudes orb) :
    (rs.map fun r => I.value orb r.coeff r.tensors r.sqOp).sum = I.value orb.spinOrbital c ts op := by
  obtain ⟨hd, choices, k1, k2, k3, k4⟩ := spinCases_choices ht hop hts h
  obtain ⟨m1, m2, m3, m4⟩ := Term.make_ok.1 ht
  have hperm : t.tensors.Perm ts := by rw [m4]; exact sortTensors_perm ts
  have htsq : t.sqOp = op := by rw [m4]
  subst htsq
  obtain ⟨hso, -⟩ := spinCases_rows hop (fun x hx => hts x (hperm.mem_iff.1 hx)) (fun x hx => m1 x (hperm.mem_iff.1 hx)) h
  have hal : ∀ i ∈ labelsOf t.tensors t.sqOp, i.isBeta = false := by
    intro i hi
    rcases mem_labelList.1 (mem_labelsOf.1 hi) with hi | ⟨x, hx, hi⟩
    · rcases List.mem_append.1 hi with hi | hi
      · exact (Indices.make_eq hop.1).2.2 hso i hi
      · exact (Indices.make_eq hop.2.1).2.2 (by rw [← (IndicesPair.make_eq hop.2.2).2]; exact hso) i hi
    · have hx' := hts x (hperm.mem_iff.1 hx)
      have hxt := (m1 x (hperm.mem_iff.1 hx)).trans hso
      rcases List.mem_append.1 hi with hi | hi
      · exact (Indices.make_eq hx'.1).2.2 hxt i hi
      · exact (Indices.make_eq hx'.2.1).2.2 (by rw [← (Tensor.make_eq hx'.2.2).2]; exact hxt) i hi
  have hbal : t.sqOp.upper.list.length = t.sqOp.lower.list.length := by
    by_contra hne
    unfold Term.generateSpinCasesNaive at h
    rw [if_neg (not_not.2 hso)] at h
    unfold IndicesPair.generateSpinCases at h
    rw [if_neg (not_not.2 hso), if_pos ⟨rfl, hne⟩] at h
    cases h
  have hlab : ∀ B, IsSpinLabeling t.tensors t.sqOp B → IsSpinLabeling ts t.sqOp B := by
    rintro B ⟨b1, b2, b3⟩
    exact ⟨by rw [← labelsOf_perm hperm]; exact b1, b2, fun x hx => b3 x (hperm.mem_iff.2 hx)⟩
  have hsep' : Separated true t.tensors t.sqOp := hsep.perm hperm.symm
  have hvp : I.value orb.spinOrbital c ts t.sqOp = I.value orb.spinOrbital c t.tensors t.sqOp :=
    (I.value_perm orb.spinOrbital c hperm t.sqOp).symm
  rw [hvp, ← spin_value I orb hsp t.tensors t.sqOp c hal choices k1 k2, k3]
  have : ∀ l : List (Finset Index), (∀ B ∈ l, B ∈ choices) →
      ((l.filterMap fun B => (spinRow canon ord c (spinPair B t.sqOp) (t.tensors.map (spinTensor B))).toOption).map
        fun r => I.value orb r.coeff r.tensors r.sqOp) = l.map fun B => I.value orb c (t.tensors.map (spinTensor B)) (spinPair B t.sqOp) := by
    intro l
    induction l with
    | nil => intro _; rfl
    | cons B l ih =>
      intro hl
      have hB := hl B (by simp)
      rw [List.filterMap_cons, List.map_cons, ← ih fun B hB => hl B (by simp [hB])]
      cases hr : spinRow canon ord c (spinPair B t.sqOp) (t.tensors.map (spinTensor B)) with
      | error e =>
        exfalso
        have := k4 B hB e hr
        subst this
        exact hkept B (hlab B ((k2 B).1 hB)) hr
      | ok r =>
        simp only [Except.toOption, List.map_cons]
        congr 1
        unfold spinRow at hr
        simp only [bind, Except.bind] at hr
        cases hm : Term.make (t.tensors.map (spinTensor B)) (spinPair B t.sqOp) c with
        | error e => rw [hm] at hr; cases hr
        | ok q =>
          rw [hm] at hr
          simp only at hr
          unfold Term.canonicalize at hr
          split_ifs at hr with hq
          refine C43_value_partial canon hcanon ord hord _ _ c q r hm true true true (hsep'.spin B hal) hr hc ?_ ?_ orb I
            ⟨fun _ => hI, fun h => (by cases h), fun _ => hH⟩ hph hac (fun _ => hna)
          · simp only [spinPair, List.length_map]; exact hbal
          · intro x hx y hy
            obtain ⟨x', hx', rfl⟩ := List.mem_map.1 hx
            obtain ⟨y', hy', rfl⟩ := List.mem_map.1 hy
            exact hkind x' (hperm.mem_iff.1 hx') y' (hperm.mem_iff.1 hy')
  exact congrArg List.sum (this choices fun _ h => h)

end

/-- Two active orbitals, one of each spin. -/
def alphaBeta : Orbitals (Fin 2) := ⟨fun _ => .active, fun o => decide (o = 1)⟩

/-- One-body tensors and operators are deltas, amplitudes and hole densities vanish. -/
def spinToy : Interp (Fin 2) ℚ ℚ where
  tensor cls _ u l := match cls, u, l with
    | .cluster, _, _ => 0
    | .hole, _, _ => 0
    | _, [a], [b] => if a = b then 1 else 0
    | _, _, _ => 0
  op u l := match u, l with
    | [a], [b] => if a = b then 1 else 0
    | _, _ => 0

theorem spinToy_tensor_zero {cls : TCls} {name : PyStr} {u l : List (Fin 2)} (h : u.length ≠ 1 ∨ l.length ≠ 1) : spinToy.tensor cls name u l = 0 := by
  rcases u with _ | ⟨a, _ | ⟨a', u⟩⟩ <;> rcases l with _ | ⟨b, _ | ⟨b', l⟩⟩ <;> cases cls <;> simp [spinToy] at h ⊢

theorem spinToy_op_zero {u l : List (Fin 2)} (h : u.length ≠ 1 ∨ l.length ≠ 1) : spinToy.op u l = 0 := by
  rcases u with _ | ⟨a, _ | ⟨a', u⟩⟩ <;> rcases l with _ | ⟨b, _ | ⟨b', l⟩⟩ <;> simp [spinToy] at h ⊢

/-- The example has all the properties asked for in C59. -/
theorem spinToy_good : spinToy.Antisymmetric ∧ spinToy.Hermitian ∧ spinToy.SpinConserving alphaBeta ∧ spinToy.Physical alphaBeta ∧
    spinToy.ActiveCumulants alphaBeta ∧ spinToy.NoActiveAmplitudes alphaBeta := by
  have h1 : ∀ (u l : List (Fin 2)), u.length = 1 → l.length = 1 → u.countP alphaBeta.spin ≠ l.countP alphaBeta.spin →
      ∃ a b, u = [a] ∧ l = [b] ∧ a ≠ b := by
    intro u l hu hl hne
    obtain ⟨a, rfl⟩ := List.length_eq_one_iff.1 hu
    obtain ⟨b, rfl⟩ := List.length_eq_one_iff.1 hl
    exact ⟨a, b, rfl, rfl, fun e => hne (by rw [e])⟩
  refine ⟨⟨?_, ?_, ?_, ?_⟩, ?_, ⟨?_, ?_⟩, ⟨?_, ?_, ?_, ?_, ?_⟩, ?_, ?_⟩
  · intro cls name pre a b post l
    rw [spinToy_tensor_zero (Or.inl (by simp; omega)), spinToy_tensor_zero (Or.inl (by simp; omega)), neg_zero]
  · intro cls name u pre a b post
    rw [spinToy_tensor_zero (Or.inr (by simp; omega)), spinToy_tensor_zero (Or.inr (by simp; omega)), neg_zero]
  · intro pre a b post l
    rw [spinToy_op_zero (Or.inl (by simp; omega)), spinToy_op_zero (Or.inl (by simp; omega)), neg_zero]
  · intro u pre a b post
    rw [spinToy_op_zero (Or.inr (by simp; omega)), spinToy_op_zero (Or.inr (by simp; omega)), neg_zero]
  · intro cls name u l
    by_cases hu : u.length = 1
    · by_cases hl : l.length = 1
      · obtain ⟨a, rfl⟩ := List.length_eq_one_iff.1 hu
        obtain ⟨b, rfl⟩ := List.length_eq_one_iff.1 hl
        cases cls <;> simp [spinToy, eq_comm]
      · rw [spinToy_tensor_zero (Or.inl hl), spinToy_tensor_zero (Or.inr hl)]
    · rw [spinToy_tensor_zero (Or.inr hu), spinToy_tensor_zero (Or.inl hu)]
  · intro cls name u l hne
    by_cases hu : u.length = 1
    · by_cases hl : l.length = 1
      · obtain ⟨a, b, rfl, rfl, hab⟩ := h1 u l hu hl hne
        cases cls <;> simp [spinToy, hab]
      · exact spinToy_tensor_zero (Or.inr hl)
    · exact spinToy_tensor_zero (Or.inl hu)
  · intro u l hne
    by_cases hu : u.length = 1
    · by_cases hl : l.length = 1
      · obtain ⟨a, b, rfl, rfl, hab⟩ := h1 u l hu hl hne
        simp [spinToy, hab]
      · exact spinToy_op_zero (Or.inr hl)
    · exact spinToy_op_zero (Or.inl hu)
  · intro name a b; rfl
  · intro name a b h; rcases h with h | h <;> cases h
  · intro name a b h; rcases h with h | h <;> cases h
  · intro name a b h
    have : a ≠ b := fun e => h (by rw [e])
    simp [spinToy, this]
  · intro name a b; simp [spinToy]
  · rintro name u l - ⟨o, -, h⟩; exact absurd rfl h
  · intro name u l _; simp [spinToy]

/-- The hypotheses are met: the one-body term with general labels has two spin cases, and the values agree. -/
theorem C59_example : ∃ t rs, Term.make [soTensor .hamiltonian 'H' 0 [lab .g 0] [lab .g 1]] (soOp [lab .g 0] [lab .g 1]) 1 = .ok t ∧
    (soOp [lab .g 0] [lab .g 1]).Constructed ∧ (soTensor .hamiltonian 'H' 0 [lab .g 0] [lab .g 1]).Constructed ∧
    CanonContract plainCanon ∧ SetOrder.sorted.Lawful ∧ t.generateSpinCasesNaive plainCanon SetOrder.sorted = .ok rs ∧ rs.length = 2 ∧
    (rs.map fun r => spinToy.value alphaBeta r.coeff r.tensors r.sqOp).sum = 2 ∧
    spinToy.value alphaBeta.spinOrbital 1 [soTensor .hamiltonian 'H' 0 [lab .g 0] [lab .g 1]] (soOp [lab .g 0] [lab .g 1]) = 2 := by
  obtain ⟨rs, h1, h2⟩ := exists_of_map (x := (Term.make [soTensor .hamiltonian 'H' 0 [lab .g 0] [lab .g 1]] (soOp [lab .g 0] [lab .g 1]) 1).bind
    fun t => t.generateSpinCasesNaive plainCanon SetOrder.sorted)
    (f := fun rs => (rs.length, (rs.map fun r => spinToy.value alphaBeta r.coeff r.tensors r.sqOp).sum)) (b := (2, 2)) (by decide +kernel)
  cases h : Term.make [soTensor .hamiltonian 'H' 0 [lab .g 0] [lab .g 1]] (soOp [lab .g 0] [lab .g 1]) 1 with
  | error e => rw [h] at h1; cases h1
  | ok t =>
    rw [h] at h1
    simp only [Prod.mk.injEq] at h2
    exact ⟨t, rs, rfl, ⟨rfl, rfl, rfl⟩, ⟨rfl, rfl, rfl⟩, plainCanon_contract, SetOrder.sorted_lawful, h1, h2.1, h2.2, by decide +kernel⟩

/-- A product of deltas only, here `K^{g0}_{g1} a^{g1}_{g0}`, is lost: `canonicalize` raises `ValueError` for each of its spin cases, and
`generate_spin_cases_naive` yields nothing, although the term is not zero. -/
theorem C59_violation_only_deltas : ∃ t, Term.make [soTensor .kronecker 'K' (-1) [lab .g 0] [lab .g 1]] (soOp [lab .g 1] [lab .g 0]) 1 = .ok t ∧
    t.generateSpinCasesNaive plainCanon SetOrder.sorted = .ok [] ∧
    spinToy.value alphaBeta.spinOrbital 1 [soTensor .kronecker 'K' (-1) [lab .g 0] [lab .g 1]] (soOp [lab .g 1] [lab .g 0]) = 2 := by
  obtain ⟨rs, h1, h2⟩ := exists_of_map (x := (Term.make [soTensor .kronecker 'K' (-1) [lab .g 0] [lab .g 1]] (soOp [lab .g 1] [lab .g 0]) 1).bind
    fun t => t.generateSpinCasesNaive plainCanon SetOrder.sorted) (f := List.length) (b := 0) (by decide +kernel)
  cases h : Term.make [soTensor .kronecker 'K' (-1) [lab .g 0] [lab .g 1]] (soOp [lab .g 1] [lab .g 0]) 1 with
  | error e => rw [h] at h1; cases h1
  | ok t =>
    rw [h] at h1
    rw [List.length_eq_zero_iff.1 h2] at h1
    exact ⟨t, rfl, h1, by decide +kernel⟩

end Dsrg
