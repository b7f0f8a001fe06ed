import Verif.Lemmas.SingletRows
import Verif.Lemmas.PlainCanon
import Verif.Spec.Toy
import Verif.Props.SpinCases

/-!
Property theorems about singlet adaptation (`generate_singlet_adaptation`).
-/

namespace Dsrg

/-! ### C82 Singlet adaptation of a spin-integrated term -/

section
variable {O R M : Type} [Fintype O] [DecidableEq O] [Inhabited O] [CommRing R] [Algebra ℚ R] [AddCommGroup M] [Module R M]

/-- The terms add up to the spin-integrated term times the fraction of the arrangements of the operator labels that keep the order of the spins. -/
theorem C82_value (canon : CanonFn) (hcanon : CanonContract canon) (ord : SetOrder) (hord : ord.Lawful) (ts : List Tensor) (op : SqOp)
    (c : ℚ) (t : Term) (ht : Term.make ts op c = .ok t) (hop : op.Constructed) (hts : ∀ x ∈ ts, x.Constructed) (hd : t.diag = ∅) (am : Bool)
    (rs : List Term) (h : t.generateSingletAdaptation canon ord am = .ok rs) (hsep : Separated true ts op)
    (hc : c = 0 ∨ op.upper.list.length.factorial * op.lower.list.length.factorial / 10 ^ 15 ≤ |c|)
    (hkind : ∀ x ∈ ts, ∀ y ∈ ts, x.name = y.name → x.cls = y.cls)
    (orb : Orbitals O) (partner : O → O) (hp : orb.Paired partner) (J : Interp O R M) (hJ : J.PairSymmetric) (hJo : J.OpPairSymmetric)
    (hH : J.Hermitian) (hph : J.Physical orb) (hac : J.ActiveCumulants orb) (hna : J.NoActiveAmplitudes orb) :
    (rs.map fun r => J.value orb r.coeff r.tensors r.sqOp).sum =
      algebraMap ℚ R (spinPermutations op.upper.list * spinPermutations op.lower.list /
        (op.upper.list.length.factorial * op.lower.list.length.factorial)) • (J.spinResolved orb partner).value orb c ts op := by
  obtain ⟨m1, m2, m3, m4⟩ := Term.make_ok.1 ht
  have hperm : t.tensors.Perm ts := by rw [m4]; exact sortTensors_perm ts
  have hcf : t.coeff = c := by rw [m4]
  have htsq : t.sqOp = op := by rw [m4]
  obtain ⟨hU, hL⟩ := Term.permPartitionOpen_spec ht hop hd
  have hwf := Term.wf_of_make ht
  subst htsq
  unfold Term.generateSingletAdaptation at h
  by_cases hsi : t.sqOp.upper.ty = .spinIntegrated
  swap
  · rw [if_pos hsi] at h; cases h
  rw [if_neg (not_not.2 hsi)] at h
  have hty : t.sqOp.lower.ty = .spinIntegrated := by rw [← (IndicesPair.make_eq hop.2.2).2, hsi]
  have hUw := (Indices.wf_iff_make _).2 hop.1
  have hLw := (Indices.wf_iff_make _).2 hop.2.1
  have hUa : t.sqOp.upper.ty.isAntisym = true := by rw [hsi]; rfl
  have hLa : t.sqOp.lower.ty.isAntisym = true := by rw [hty]; rfl
  obtain ⟨wu, nu, u1, u2, u3⟩ := sideRows_all t.sqOp.upper hUa hUw _ hU.perm hU.pure
  obtain ⟨wl, nl, l1, l2, l3⟩ := sideRows_all t.sqOp.lower hLa hLw _ hL.perm hL.pure
  have hmul : ∀ {x : Indices} {p : List (List Index)} {n : Nat}, x.ty.isAntisym = true → p.flatten.Perm x.list →
      x.nMultisetPermutation p = .ok n → n ∣ x.list.length.factorial := by
    intro x p n ha hp hn
    obtain ⟨n', e, e'⟩ := C12_multinomial x ha p hp
    rw [hn] at e; injection e with e; subst e
    exact ⟨_, e'.symm⟩
  have du := hmul hUa hU.perm u2
  have dl := hmul hLa hL.perm l2
  have hperms := permuteIndices_cre u1 l1 u3 l3
    (by intro he
        have : t.sqOp.upper.list = [] := by
          have : t.sqOp.upper.list = [] ∧ t.sqOp.lower.list = [] := by simpa [IndicesPair.isEmpty, IndicesPair.size, IndicesPair.nUpper, IndicesPair.nLower, Indices.size] using he
          exact this.1
        rw [this] at du; simpa using du)
    (by intro he
        have : t.sqOp.lower.list = [] := by
          have : t.sqOp.upper.list = [] ∧ t.sqOp.lower.list = [] := by simpa [IndicesPair.isEmpty, IndicesPair.size, IndicesPair.nUpper, IndicesPair.nLower, Indices.size] using he
          exact this.2
        rw [this] at dl; simpa using dl)
  have hn : t.sqOp.nMultisetPermutation t.permPartitionOpen.1 t.permPartitionOpen.2 = .ok (nu * nl) := by
    unfold IndicesPair.nMultisetPermutation
    rw [u2, l2]; rfl
  obtain ⟨n, hn', h⟩ := bind_ok h
  rw [hn] at hn'; injection hn' with hn'; subst hn'
  obtain ⟨perms, hperms', h⟩ := bind_ok h
  rw [hperms] at hperms'; injection hperms' with hperms'
  obtain ⟨rows, hrows, h⟩ := bind_ok h
  injection h with h; subst h
  have hset : t.indicesSet = labelsOf t.tensors t.sqOp := by
    rw [labelsOf_perm hperm, m4]
  obtain ⟨hinj, hsp⟩ := Term.singletReplacement_spec hord hwf
  rw [hset] at hinj hsp
  have hn0 : 0 < nu * nl := Nat.mul_pos u3.pos l3.pos
  have hle : nu * nl ≤ t.sqOp.upper.list.length.factorial * t.sqOp.lower.list.length.factorial :=
    Nat.mul_le_mul (Nat.le_of_dvd (Nat.factorial_pos _) du) (Nat.le_of_dvd (Nat.factorial_pos _) dl)
  have hc' : t.coeff = 0 ∨ ((nu * nl : Nat) : ℚ) / 10 ^ 15 ≤ |t.coeff| := by
    rw [hcf]
    refine hc.imp_right fun h => le_trans ?_ h
    have : ((nu * nl : Nat) : ℚ) ≤ t.sqOp.upper.list.length.factorial * t.sqOp.lower.list.length.factorial := by exact_mod_cast hle
    gcongr
  have htsx : ∀ x ∈ t.tensors, x.pair.upper.WF ∧ x.pair.lower.WF ∧ x.pair.upper.ty.isAntisym = true ∧ x.pair.lower.ty.isAntisym = true := by
    intro x hx
    have hx' := hperm.mem_iff.1 hx
    have hxc := hts x hx'
    have e := (m1 x hx').trans hsi
    refine ⟨(Indices.wf_iff_make _).2 hxc.1, (Indices.wf_iff_make _).2 hxc.2.1, ?_, ?_⟩
    · exact (congrArg IType.isAntisym e).trans rfl
    · rw [← (Tensor.make_eq hxc.2.2).2]; exact (congrArg IType.isAntisym e).trans rfl
  set X : M := ∑ σ ∈ orb.assignments (labelsOf t.tensors t.sqOp), (J.spinResolved orb partner).pval (extendTo σ) t.tensors •
    (J.spinResolved orb partner).opval (extendTo σ) t.sqOp with hX
  have hrow : ∀ q ∈ perms, ∀ r : List Term, (do
      let op ← IndicesPair.make (← Indices.make .spinIntegrated q.2.1) (← Indices.make .spinIntegrated q.2.2)
      let adapted ← (op :: t.tensors.map fun x : Tensor => x.pair).mapM fun x : IndicesPair => x.singletAdaptation (t.singletReplacement ord) am
      (pyProduct adapted).mapM fun pairs => t.singletRow canon ord (nu * nl) q.1 pairs) = .ok r →
      (r.map fun r => J.value orb r.coeff r.tensors r.sqOp).sum = algebraMap ℚ R (c / (nu * nl : Nat)) • X := by
    intro q hq r hr
    rw [← hperms'] at hq
    obtain ⟨w, hw, hq⟩ := List.mem_flatMap.1 hq
    obtain ⟨w', hw', rfl⟩ := List.mem_map.1 hq
    have pw := u3.perm w hw
    have pw' := l3.perm w' hw'
    obtain ⟨a, ha, hr1⟩ := bind_ok hr
    obtain ⟨b, hb, hr2⟩ := bind_ok hr1
    obtain ⟨o, ho, hr3⟩ := bind_ok hr2
    obtain ⟨adapted, had, hr4⟩ := bind_ok hr3
    clear hr hr1 hr2 hr3
    obtain ⟨rfl, a2, a3⟩ := Indices.make_eq ha
    obtain ⟨rfl, b2, b3⟩ := Indices.make_eq hb
    obtain ⟨rfl, -⟩ := IndicesPair.make_eq ho
    have hlab : labelsOf t.tensors ⟨⟨.spinIntegrated, w⟩, ⟨.spinIntegrated, w'⟩⟩ = labelsOf t.tensors t.sqOp := by
      ext i
      rw [mem_labelsOf, mem_labelList, mem_labelsOf, mem_labelList]
      exact or_congr_left (pw.append pw').mem_iff
    have := singlet_perm hcanon hord (t := t) (op := ⟨⟨.spinIntegrated, w⟩, ⟨.spinIntegrated, w'⟩⟩) ⟨⟨a2, a3⟩, ⟨b2, b3⟩, rfl, rfl⟩ htsx
      (by rw [hlab]; exact hinj) (by rw [hlab]; exact hsp) (am := am) (n := nu * nl)
      (s := relSign t.sqOp.upper.list w * relSign t.sqOp.lower.list w') (sign_mul (relSign_pm _ _) (relSign_pm _ _)) hn0 hc'
      (Separated.follow₂ (hsep.perm hperm.symm) (f := id) (ts' := t.tensors) (by
        rw [List.forall₂_same]; intro x hx; exact ⟨rfl, rfl, by simp, by simp⟩) (by simpa using pw) (by simpa using pw') (fun _ _ _ _ e => e)
        (fun _ _ => rfl)) (fun x hx y hy => hkind x (hperm.mem_iff.1 hx) y (hperm.mem_iff.1 hy)) had hr4 hp J hJ hJo hH hph hac hna
    rw [this, hlab, hcf, hX]
    congr 1
    refine Finset.sum_congr rfl fun σ hσ => ?_
    congr 1
    have hin : ∀ i ∈ labelsOf t.tensors t.sqOp, orb.In i.space (extendTo σ i) := by
      intro i hi
      rw [Orbitals.mem_assignments] at hσ
      rw [extendTo_mem σ hi]
      exact hσ ⟨i, hi⟩
    have hoS : ∀ i ∈ t.sqOp.indices, i ∈ labelsOf t.tensors t.sqOp := by
      intro i hi; rw [mem_labelsOf, mem_labelList]; exact Or.inl hi
    rw [opval_spinResolved J partner hin hoS, opval_spinResolved J partner hin (by
      intro i hi
      refine hoS i ?_
      rw [show IndicesPair.indices ⟨⟨.spinIntegrated, w⟩, ⟨.spinIntegrated, w'⟩⟩ = w ++ w' from rfl] at hi
      exact ((pw.append pw').mem_iff).1 hi)]
    exact singletVal_arrange hJo hUw.1 hLw.1 pw pw' _ _ _
  have hsum : (rows.flatten.map fun r => J.value orb r.coeff r.tensors r.sqOp).sum = perms.length • algebraMap ℚ R (c / (nu * nl : Nat)) • X := by
    replace hrows := mapM_ok_forall₂.1 hrows
    clear * - hrows hrow
    induction hrows with
    | nil => simp
    | @cons q r ps rs' h1 _ ih =>
      rw [List.flatten_cons, List.map_append, List.sum_append, ih fun q hq => hrow q (List.mem_cons_of_mem _ hq), hrow q (by simp) r h1, List.length_cons, succ_nsmul,
        add_comm]
  rw [hsum, ← hperms']
  have hlen : (wu.flatMap fun w => wl.map fun w' => (relSign t.sqOp.upper.list w * relSign t.sqOp.lower.list w', w, w')).length =
      wu.length * wl.length := by
    simp [List.length_flatMap]
  rw [hlen, ← (J.spinResolved orb partner).value_perm orb c hperm]
  unfold Interp.value
  rw [← hX, ← Nat.cast_smul_eq_nsmul R, smul_smul, smul_smul, ← map_natCast (algebraMap ℚ R), ← map_mul, ← map_mul]
  congr 2
  have cu : ((wu.length : ℚ)) * t.sqOp.upper.list.length.factorial = nu * spinPermutations t.sqOp.upper.list := by exact_mod_cast u3.count
  have cl : ((wl.length : ℚ)) * t.sqOp.lower.list.length.factorial = nl * spinPermutations t.sqOp.lower.list := by exact_mod_cast l3.count
  have f1 : (t.sqOp.upper.list.length.factorial : ℚ) ≠ 0 := by exact_mod_cast (Nat.factorial_pos _).ne'
  have f2 : (t.sqOp.lower.list.length.factorial : ℚ) ≠ 0 := by exact_mod_cast (Nat.factorial_pos _).ne'
  have f3 : (nu : ℚ) ≠ 0 := by exact_mod_cast u3.pos.ne'
  have f4 : (nl : ℚ) ≠ 0 := by exact_mod_cast l3.pos.ne'
  push_cast
  rw [mul_div_assoc', div_mul_eq_mul_div, div_eq_div_iff (mul_ne_zero f3 f4) (mul_ne_zero f1 f2)]
  calc _ = (wu.length * t.sqOp.upper.list.length.factorial : ℚ) * (wl.length * t.sqOp.lower.list.length.factorial) * c := by ring
    _ = _ := by rw [cu, cl]; ring

/-- When the creation labels have one spin and the annihilation labels have one spin (or the operator is empty), the terms add up to the
spin-integrated term.  Partial: for other operators they do not, see `C82_value` for the factor. -/
theorem C82_one_spin_partial (canon : CanonFn) (hcanon : CanonContract canon) (ord : SetOrder) (hord : ord.Lawful) (ts : List Tensor) (op : SqOp)
    (c : ℚ) (t : Term) (ht : Term.make ts op c = .ok t) (hop : op.Constructed) (hts : ∀ x ∈ ts, x.Constructed) (hd : t.diag = ∅) (am : Bool)
    (rs : List Term) (h : t.generateSingletAdaptation canon ord am = .ok rs) (hsep : Separated true ts op)
    (hc : c = 0 ∨ op.upper.list.length.factorial * op.lower.list.length.factorial / 10 ^ 15 ≤ |c|)
    (hkind : ∀ x ∈ ts, ∀ y ∈ ts, x.name = y.name → x.cls = y.cls) (b b' : Bool) (hb : ∀ i ∈ op.upper.list, i.isBeta = b)
    (hb' : ∀ i ∈ op.lower.list, i.isBeta = b')
    (orb : Orbitals O) (partner : O → O) (hp : orb.Paired partner) (J : Interp O R M) (hJ : J.PairSymmetric) (hJo : J.OpPairSymmetric)
    (hH : J.Hermitian) (hph : J.Physical orb) (hac : J.ActiveCumulants orb) (hna : J.NoActiveAmplitudes orb) :
    (rs.map fun r => J.value orb r.coeff r.tensors r.sqOp).sum = (J.spinResolved orb partner).value orb c ts op := by
  rw [C82_value canon hcanon ord hord ts op c t ht hop hts hd am rs h hsep hc hkind orb partner hp J hJ hJo hH hph hac hna,
    spinPermutations_one hb, spinPermutations_one hb', div_self, map_one, one_smul]
  exact_mod_cast (Nat.mul_pos (Nat.factorial_pos _) (Nat.factorial_pos _)).ne'

end

/-- Only for spin-integrated terms. -/
theorem C82_type_error (canon : CanonFn) (ord : SetOrder) (t : Term) (am : Bool) (h : t.sqOp.upper.ty ≠ .spinIntegrated) :
    t.generateSingletAdaptation canon ord am = .error .typeError := by
  unfold Term.generateSingletAdaptation
  rw [if_pos h]; rfl

/-- A factor with labels for alpha and beta spin orbitals. -/
def siTensor (cls : TCls) (name : Char) (prio : Int) (u l : List Index) : Tensor :=
  ⟨cls, [name], prio, ⟨⟨.spinIntegrated, u⟩, ⟨.spinIntegrated, l⟩⟩⟩

/-- An operator string with labels for alpha and beta spin orbitals. -/
def siOp (u l : List Index) : SqOp := ⟨⟨.spinIntegrated, u⟩, ⟨.spinIntegrated, l⟩⟩

/-- The alpha and the beta label of active orbitals with number `n`. -/
def la (n : Nat) : Index := ⟨⟨.a, false⟩, n⟩
@[inherit_doc la] def lb (n : Nat) : Index := ⟨⟨.a, true⟩, n⟩

/-- Hamiltonian and operators are one, amplitudes and hole densities vanish, the one-body density is the delta, other cumulants vanish. -/
def singletToy : Interp (Fin 2) ℚ ℚ where
  tensor cls _ u l := match cls, u, l with
    | .cluster, _, _ => 0
    | .hole, _, _ => 0
    | .hamiltonian, _, _ => 1
    | _, [a], [b] => if a = b then 1 else 0
    | _, _, _ => 0
  op _ _ := 1

/-- The other spin orbital. -/
def otherSpin (o : Fin 2) : Fin 2 := 1 - o

theorem singletToy_good : alphaBeta.Paired otherSpin ∧ singletToy.PairSymmetric ∧ singletToy.OpPairSymmetric ∧ singletToy.Hermitian ∧
    singletToy.Physical alphaBeta ∧ singletToy.ActiveCumulants alphaBeta ∧ singletToy.NoActiveAmplitudes alphaBeta := by
  have hz : ∀ cls name (u l : List (Fin 2)), u.length ≠ 1 ∨ l.length ≠ 1 → singletToy.tensor cls name u l = if cls = .hamiltonian then 1 else 0 := by
    intro cls name u l h
    rcases u with _ | ⟨a, _ | ⟨a', u⟩⟩ <;> rcases l with _ | ⟨b, _ | ⟨b', l⟩⟩ <;> cases cls <;> simp [singletToy] at h ⊢
  refine ⟨⟨fun _ => rfl, by decide, by decide⟩, ?_, fun _ _ _ _ _ _ _ _ _ => rfl, ?_, ⟨?_, ?_, ?_, ?_, ?_⟩, ?_, ?_⟩
  · intro cls name pre a b post pre' a' b' post' _
    rw [hz _ _ _ _ (Or.inl (by simp; omega)), hz _ _ _ _ (Or.inl (by simp; omega))]
  · intro cls name u l
    by_cases hu : u.length = 1
    · by_cases hl : l.length = 1
      · obtain ⟨a, rfl⟩ := List.length_eq_one_iff.1 hu
        obtain ⟨b, rfl⟩ := List.length_eq_one_iff.1 hl
        cases cls <;> simp [singletToy, eq_comm]
      · rw [hz _ _ _ _ (Or.inl hl), hz _ _ _ _ (Or.inr hl)]
    · rw [hz _ _ _ _ (Or.inr hu), hz _ _ _ _ (Or.inl hu)]
  · intro name a b; rfl
  · intro name a b h; rcases h with h | h <;> cases h
  · intro name a b h; rcases h with h | h <;> cases h
  · intro name a b h
    have : a ≠ b := fun e => h (by rw [e])
    simp [singletToy, this]
  · intro name a b; simp [singletToy]
  · rintro name u l - ⟨o, -, h⟩; exact absurd rfl h
  · intro name u l _; simp [singletToy]

/-- `H^{a0 A0}_{a1 A1} L^{A1}_{A0} a^{a1}_{a0}`. -/
def exOneSpin : List Tensor := [siTensor .hamiltonian 'H' 0 [la 0, lb 0] [la 1, lb 1], siTensor .cumulant 'L' 0 [lb 1] [lb 0]]

/-- The hypotheses are met: the operator of `H^{a0 A0}_{a1 A1} L^{A1}_{A0} a^{a1}_{a0}` has alpha labels only, and the values agree. -/
theorem C82_example : ∃ t rs, Term.make exOneSpin (siOp [la 1] [la 0]) 1 = .ok t ∧ t.diag = ∅ ∧ (siOp [la 1] [la 0]).Constructed ∧
    (∀ x ∈ exOneSpin, x.Constructed) ∧ CanonContract plainCanon ∧ SetOrder.sorted.Lawful ∧ Separated true exOneSpin (siOp [la 1] [la 0]) ∧
    t.generateSingletAdaptation plainCanon SetOrder.sorted true = .ok rs ∧ rs.length = 1 ∧
    (rs.map fun r => singletToy.value alphaBeta r.coeff r.tensors r.sqOp).sum = 1 ∧
    (singletToy.spinResolved alphaBeta otherSpin).value alphaBeta 1 exOneSpin (siOp [la 1] [la 0]) = 1 := by
  obtain ⟨rs, h1, h2⟩ := exists_of_map (x := (Term.make exOneSpin (siOp [la 1] [la 0]) 1).bind
    fun t => t.generateSingletAdaptation plainCanon SetOrder.sorted true)
    (f := fun rs => (rs.length, (rs.map fun r => singletToy.value alphaBeta r.coeff r.tensors r.sqOp).sum)) (b := (1, 1)) (by decide +kernel)
  obtain ⟨t, h, hd⟩ := exists_of_map (x := Term.make exOneSpin (siOp [la 1] [la 0]) 1) (f := fun t => t.diag) (b := ∅) (by decide +kernel)
  rw [h] at h1
  simp only [Prod.mk.injEq] at h2
  exact ⟨t, rs, h, hd, ⟨rfl, rfl, rfl⟩, by
      intro x hx
      simp only [exOneSpin, List.mem_cons, List.not_mem_nil, or_false] at hx
      rcases hx with rfl | rfl <;> exact ⟨rfl, rfl, rfl⟩, plainCanon_contract, SetOrder.sorted_lawful, ⟨by simp [exOneSpin, ActsAsDelta, siTensor], by simp [exOneSpin, ActsAsDelta, siTensor, lb], by decide +kernel⟩, h1, h2.1, h2.2,
    by decide +kernel⟩

/-- `H^{a0 A0}_{a1 A1} a^{a1 A1}_{a0 A0}`. -/
def exTwoSpins : List Tensor := [siTensor .hamiltonian 'H' 0 [la 0, lb 0] [la 1, lb 1]]

/-- An operator with alpha and beta labels: the term counts `2! 2! = 4` arrangements of the operator labels, yields the one that keeps the order of the
spins, and divides by four.  The result is a fourth of the term. -/
theorem C82_violation_two_spins : ∃ t rs, Term.make exTwoSpins (siOp [la 1, lb 1] [la 0, lb 0]) 1 = .ok t ∧
    t.generateSingletAdaptation plainCanon SetOrder.sorted true = .ok rs ∧
    (rs.map fun r => singletToy.value alphaBeta r.coeff r.tensors r.sqOp).sum = 1 / 4 ∧
    (singletToy.spinResolved alphaBeta otherSpin).value alphaBeta 1 exTwoSpins (siOp [la 1, lb 1] [la 0, lb 0]) = 1 := by
  obtain ⟨rs, h1, h2⟩ := exists_of_map (x := (Term.make exTwoSpins (siOp [la 1, lb 1] [la 0, lb 0]) 1).bind
    fun t => t.generateSingletAdaptation plainCanon SetOrder.sorted true)
    (f := fun rs => (rs.map fun r => singletToy.value alphaBeta r.coeff r.tensors r.sqOp).sum) (b := 1 / 4) (by decide +kernel)
  cases h : Term.make exTwoSpins (siOp [la 1, lb 1] [la 0, lb 0]) 1 with
  | error e => rw [h] at h1; cases h1
  | ok t =>
    rw [h] at h1
    exact ⟨t, rs, rfl, h1, h2, by decide +kernel⟩

end Dsrg
