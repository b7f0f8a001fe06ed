import Verif.Lemmas.WickBch
import Verif.Props.Wick

/-!
Properties C79 and C80: the levels of `bch_cc_rsc` and the result of `nested_commutator_cc` are the nested commutators of the Hamiltonian with the
amplitudes.
-/

namespace Dsrg

section
variable {O R A : Type} [Fintype O] [DecidableEq O] [Inhabited O] [CommRing R] [Algebra ℚ R] [Ring A] [Algebra R A]

/-- C79: the terms that `bch_cc_rsc` returns for level `n` add up to `1 / n! [...[[H, A], A]..., A]` with `n` commutators of operators, where `H` is
the Hamiltonian without active orbitals (see C57) and `A = ∑ T_k`, or `∑ T_k - T_k†` in the unitary formalism.  The limits must cut off nothing
but uncontracted products, and the coefficients must not fall under the threshold of `combine_terms`. -/
theorem C79_level (m : Machine) (hcanon : CanonContract m.canon) (hord : m.ord.Lawful) (o : Options) (levels : List Nat) (K : Nat)
    (hK : levels.max? = some K) (unitary singleRef : Bool) (limits : List (Int × Int × Int))
    (hsize : 4 * (K.factorial ^ 2) ^ limits.length * limits.length.factorial ≤ 10 ^ 15)
    (calls : List (List (Term × Term))) (outs : List (List Term)) (h : BchRun m o levels unitary singleRef limits calls outs)
    (orb : Orbitals O) (I : Interp O R A) (hI : I.SlotSymmetric true o.hermitian) (hph : I.Physical orb) (hac : I.ActiveCumulants orb)
    (hna : I.NoActiveAmplitudes orb) (field : Bool × O → A) (hfield : Fermions field) (hno : I.NormalOrdered field)
    (hw : WideLimits I K 4 limits) (n : Nat) (hn : n ≤ limits.length) :
    ∃ out, outs[n]? = some out ∧ (out.map fun t => I.value orb t.coeff t.tensors t.sqOp).sum =
      algebraMap ℚ R (1 / (n.factorial : ℚ)) • nestedCommutator
        (I.hamiltonianPart (Finset.univ.filter fun o => orb.spin o = false ∧ orb.elem o ≠ .active) 1 +
          I.hamiltonianPart (Finset.univ.filter fun o => orb.spin o = false ∧ orb.elem o ≠ .active) 2)
        (I.generator orb singleRef unitary levels) n := by
  obtain ⟨maxLevel, start, rest, h1, h2, h3, rfl⟩ := h
  rw [hK] at h1
  injection h1 with h1
  subst h1
  have hmax : ∀ k ∈ levels, k ≤ K := fun k hk => (List.max?_eq_some_iff.1 hK).2 k hk
  have hcopy : List.Forall₂ (fun b c : Term => c.tensors.Perm b.tensors ∧ c.sqOp = b.sqOp ∧ c.coeff = b.coeff) start start :=
    List.forall₂_same.2 fun t _ => ⟨List.Perm.refl _, rfl, rfl⟩
  have hgood := (bchStart_good hord h2).1
  suffices key : ∀ n, n ≤ limits.length → ∃ out N, (start :: rest)[n]? = some out ∧ I.listValue orb out =
      algebraMap ℚ R (1 / (n.factorial : ℚ)) • nestedCommutator
        (I.hamiltonianPart (Finset.univ.filter fun o => orb.spin o = false ∧ orb.elem o ≠ .active) 1 +
          I.hamiltonianPart (Finset.univ.filter fun o => orb.spin o = false ∧ orb.elem o ≠ .active) 2)
        (I.generator orb singleRef unitary levels) n ∧ (∀ t ∈ out, t.nOpen ≤ N) ∧ WideLimits I K N (limits.drop n) by
    obtain ⟨out, -, e1, e2, -⟩ := key n hn
    exact ⟨out, e1, e2⟩
  intro n
  induction n with
  | zero =>
    intro _
    refine ⟨start, 4, rfl, ?_, fun t ht => (nOpen_le_card (hgood t ht).1).trans (hgood t ht).2.card, hw⟩
    rw [bchStart_operator hord h2]
    simp [nestedCommutator]
  | succ n ih =>
    intro hn
    obtain ⟨out, N, e1, e2, e3, e4⟩ := ih (by omega)
    obtain ⟨⟨mc, mn, mx⟩, hj⟩ : ∃ x, limits[n]? = some x := ⟨_, List.getElem?_eq_getElem (by omega)⟩
    obtain ⟨b, a, am, F, k1, k2, k3, k4, k5⟩ := BchLevels.value hcanon hord hmax hI hph hac hna (i := 0) (before := start)
      hcopy (by simpa using hgood) (by simpa using bchStart_coeff hord h2) (by simpa using hsize) h3 n mc mn mx hj
    obtain ⟨b', a', am', k1', k2', k3', k6, k7⟩ := BchLevels.shape hcanon hord hmax (i := 0) (before := start)
      hcopy (by simpa using hgood) h3 n mc mn mx hj
    rw [k1] at k1'
    rw [k2] at k2'
    rw [k3] at k3'
    injection k1' with k1'
    injection k2' with k2'
    injection k3' with k3'
    subst k1' k2' k3'
    rw [e1] at k1
    injection k1 with k1
    subst k1
    rw [List.drop_eq_getElem_cons (by omega)] at e4
    have hx : limits[n] = (mc, mn, mx) := by
      have := List.getElem?_eq_getElem (l := limits) (i := n) (by omega)
      rw [hj] at this
      injection this with this
      exact this.symm
    rw [hx] at e4
    obtain ⟨w1, w2, w3, w4⟩ := e4
    refine ⟨a, _, k2, ?_, ?_, w4⟩
    · rw [k5, commutator_values_sum (N := N + 2 * K) (fun l hl r hr => by
        obtain ⟨g1, g2, g3, g4⟩ := k6 l hl r hr
        have := e3 l hl
        exact ⟨g1, g2, g3, by omega⟩) hfield hno (hI.1 rfl) hph hac w1 w2 w3 k4, clusterOperators_value k3, e2, nestedCommutator,
        smul_mul_assoc, mul_smul_comm, ← smul_sub, ← mul_smul, ← map_mul]
      congr 2
      rw [Nat.factorial_succ]
      have : (n.factorial : ℚ) ≠ 0 := by exact_mod_cast Nat.factorial_ne_zero n
      push_cast
      field_simp
      simp
    · intro t ht
      obtain ⟨b1, b2⟩ := k7 N e3 t ht
      omega

/-- C79 for all levels together: the terms returned for the levels from 0 to the last one add up to the expansion of `exp(-A) H exp(A)` up to the
last level. -/
theorem C79_sum (m : Machine) (hcanon : CanonContract m.canon) (hord : m.ord.Lawful) (o : Options) (levels : List Nat) (K : Nat)
    (hK : levels.max? = some K) (unitary singleRef : Bool) (limits : List (Int × Int × Int))
    (hsize : 4 * (K.factorial ^ 2) ^ limits.length * limits.length.factorial ≤ 10 ^ 15)
    (calls : List (List (Term × Term))) (outs : List (List Term)) (h : BchRun m o levels unitary singleRef limits calls outs)
    (orb : Orbitals O) (I : Interp O R A) (hI : I.SlotSymmetric true o.hermitian) (hph : I.Physical orb) (hac : I.ActiveCumulants orb)
    (hna : I.NoActiveAmplitudes orb) (field : Bool × O → A) (hfield : Fermions field) (hno : I.NormalOrdered field)
    (hw : WideLimits I K 4 limits) :
    (outs.flatten.map fun t => I.value orb t.coeff t.tensors t.sqOp).sum =
      ∑ n ∈ Finset.range (limits.length + 1), algebraMap ℚ R (1 / (n.factorial : ℚ)) • nestedCommutator
        (I.hamiltonianPart (Finset.univ.filter fun o => orb.spin o = false ∧ orb.elem o ≠ .active) 1 +
          I.hamiltonianPart (Finset.univ.filter fun o => orb.spin o = false ∧ orb.elem o ≠ .active) 2)
        (I.generator orb singleRef unitary levels) n := by
  have hlen : outs.length = limits.length + 1 := by
    obtain ⟨maxLevel, start, rest, -, -, h3, rfl⟩ := h
    have : ∀ {limits : List (Int × Int × Int)} {i : Nat} {pool : List Term} {calls : List (List (Term × Term))} {rest : List (List Term)},
        BchLevels m o levels unitary singleRef (maxLevel * 2) i pool limits calls rest → rest.length = limits.length := by
      intro limits
      induction limits with
      | nil => intro i pool calls rest h; obtain ⟨-, rfl⟩ := h; rfl
      | cons x limits ih =>
        obtain ⟨mc, mn, mx⟩ := x
        intro i pool calls rest h
        obtain ⟨_, _, _, _, _, _, outs', -, -, -, -, -, h, -, rfl⟩ := h
        simp [ih h]
    simp [this h3]
  have hsum : ∀ outs : List (List Term), (outs.flatten.map fun t => I.value orb t.coeff t.tensors t.sqOp).sum =
      ∑ n ∈ Finset.range outs.length, (((outs[n]?).getD []).map fun t => I.value orb t.coeff t.tensors t.sqOp).sum := by
    intro outs
    induction outs with
    | nil => simp
    | cons out outs ih =>
      rw [List.flatten_cons, List.map_append, List.sum_append, ih, List.length_cons, Finset.sum_range_succ']
      simp [add_comm]
  rw [hsum, hlen]
  refine Finset.sum_congr rfl fun n hn => ?_
  obtain ⟨out, e1, e2⟩ := C79_level m hcanon hord o levels K hK unitary singleRef limits hsize calls outs h orb I hI hph hac hna field hfield hno hw n
    (by have := Finset.mem_range.1 hn; omega)
  rw [e1]
  exact e2

omit [Fintype O] [DecidableEq O] [Inhabited O] [CommRing R] [Algebra ℚ R] [Ring A] [Algebra R A] in
theorem sum_bodies {levels : List Nat} {K : Nat} (hK : ∀ k ∈ levels, k ≤ K) : ∀ {w : List OpName},
    (∀ x ∈ w, (x.isH = true → x = .H 1 ∨ x = .H 2) ∧ (x.isH = false → x.bodies ∈ levels)) →
    (w.map OpName.bodies).sum + K * w.countP OpName.isH ≤ 2 * w.countP OpName.isH + K * w.length := by
  intro w
  induction w with
  | nil => intro _; simp
  | cons x w ih =>
    intro h
    have := ih fun y hy => h y (by simp [hy])
    rw [List.map_cons, List.sum_cons, List.countP_cons, List.length_cons]
    cases hx : x.isH with
    | true =>
      have hb : x.bodies ≤ 2 := by rcases (h x (by simp)).1 hx with rfl | rfl <;> simp [OpName.bodies]
      rw [if_pos rfl]
      ring_nf at this ⊢
      omega
    | false =>
      have hb := hK _ ((h x (by simp)).2 hx)
      rw [if_neg (by simp)]
      ring_nf at this ⊢
      omega

/-- C80: the terms that `nested_commutator_cc` returns add up to `1 / n! [...[[H, A], A]..., A]` with `n` commutators of operators, where `H` is the
Hamiltonian and `A = ∑ T_k`, or `∑ T_k - T_k†` in the unitary formalism.  Partial: `for_commutator=False`.  The limits must cut off nothing, and the
coefficients must not fall under the threshold of `combine_terms`. -/
theorem C80_nested_partial (m : Machine) (hcanon : CanonContract m.canon) (hord : m.ord.Lawful) (o : Options) (hf : o.forCommutator = false)
    (n : Nat) (hn : 1 ≤ n) (levels : List Nat) (K : Nat) (hK : ∀ k ∈ levels, 1 ≤ k ∧ k ≤ K)
    (hsize : n.factorial * (4 * (K.factorial ^ 2) ^ n) ≤ 10 ^ 15) (unitary singleRef : Bool)
    (expansion : List (ℤ × List OpName)) (calls : List (List Term × ℚ)) (out : List Term)
    (h : NestedRun m o n levels unitary singleRef expansion calls out)
    (orb : Orbitals O) (I : Interp O R A) (hI : I.SlotSymmetric true o.hermitian) (hph : I.Physical orb) (hac : I.ActiveCumulants orb)
    (hna : I.NoActiveAmplitudes orb) (field : Bool × O → A) (hfield : Fermions field) (hno : I.NormalOrdered field)
    (hcu : I.CumulantsUpTo o.maxCu) (hmin : o.minOpen ≤ 0) (hmax : ((4 + 2 * K * n : Nat) : Int) ≤ o.maxOpen) :
    (out.map fun t => I.value orb t.coeff t.tensors t.sqOp).sum =
      algebraMap ℚ R (1 / (n.factorial : ℚ)) • nestedCommutator
        (I.hamiltonianPart (Finset.univ.filter fun o => orb.spin o = false) 1 + I.hamiltonianPart (Finset.univ.filter fun o => orb.spin o = false) 2)
        (I.generator orb singleRef unitary levels) n := by
  obtain ⟨W, hW, hsum⟩ := C74_nested_partial m hcanon hord o hf n hn levels K hK hsize unitary singleRef expansion calls out h orb I hI hph hac hna
  rw [hsum]
  congr 1
  have e : ∀ p ∈ nestedWords [OpName.H 1, OpName.H 2] (ampSymbols levels unitary) n, p.1 • W p.2 = p.1 • (p.2.map (I.symbolOperator orb singleRef)).prod := by
    intro p hp
    congr 1
    obtain ⟨k1, k2, k3⟩ := nestedWords_mem (List.mem_map_of_mem hp)
    refine (hW p.2 (List.mem_map_of_mem hp)).eq_prod ?_ hfield hno (hI.1 rfl) hph hac hcu hmin ?_
    · intro x hx
      cases hxh : x.isH with
      | true => rcases (k3 x hx).1 hxh with rfl | rfl <;> simp [OpName.bodies]
      | false => exact (hK _ ((k3 x hx).2 hxh)).1
    · have := sum_bodies (fun k hk => (hK k hk).2) k3
      rw [k1, k2] at this
      refine Int.le_trans (Int.ofNat_le.2 ?_) hmax
      ring_nf at this ⊢
      omega
  rw [List.map_congr_left e, nestedWords_sum]
  congr 1
  · simp [Interp.symbolOperator]
  · unfold ampSymbols Interp.generator
    cases unitary with
    | false => simp [Interp.symbolOperator, Function.comp_def]
    | true =>
      have : ∀ l : List Nat, (l.map fun k => -I.deexcitation orb singleRef k).sum = -(l.map fun k => I.deexcitation orb singleRef k).sum := by
        intro l
        induction l with
        | nil => simp
        | cons k l ih => simp only [List.map_cons, List.sum_cons, ih]; abel
      simp [Interp.symbolOperator, Function.comp_def, this, sub_eq_add_neg]

end

/-- The hypotheses of C79 can be met: three levels with one-body amplitudes in the unitary formalism, and two orbitals. -/
theorem C79_example : ∃ (o : Options) (calls : List (List (Term × Term))) (outs : List (List Term)),
    BchRun exMachine o [1] true false [(1, 0, 4), (1, 0, 4), (1, 0, 4)] calls outs ∧ WideLimits fockSpace 1 4 [(1, 0, 4), (1, 0, 4), (1, 0, 4)] ∧
    fockSpace.SlotSymmetric true o.hermitian ∧ fockSpace.Physical coreVirtual ∧ fockSpace.ActiveCumulants coreVirtual ∧
    fockSpace.NoActiveAmplitudes coreVirtual ∧ Fermions twoFermions ∧ fockSpace.NormalOrdered twoFermions ∧
    nestedCommutator
      (fockSpace.hamiltonianPart (Finset.univ.filter fun o => coreVirtual.spin o = false ∧ coreVirtual.elem o ≠ .active) 1 +
        fockSpace.hamiltonianPart (Finset.univ.filter fun o => coreVirtual.spin o = false ∧ coreVirtual.elem o ≠ .active) 2)
      (fockSpace.generator coreVirtual false true [1]) 2 ≠ 0 := by
  obtain ⟨c, l, p⟩ := exMachine_ok
  let o : Options := { maxCu := 1, maxOpen := 8, minOpen := 0, forCommutator := true, expandHole := true, nProcess := 2, hermitian := true }
  obtain ⟨calls, outs, h⟩ := (C76_bch_cc_rsc _ c l p o (by decide) [1] (by simp) (by simp) true false [(1, 0, 4), (1, 0, 4), (1, 0, 4)]).2
  obtain ⟨w1, w2, w3, w4, w5⟩ := fockSpace_world
  refine ⟨o, calls, outs, h, ?_, w1, w2, w3, w4, twoFermions_fermions, fockSpace_normalOrdered, by decide +kernel⟩
  simp [WideLimits, w5]

/-- The hypotheses of C80 can be met: two commutators with one-body amplitudes in the unitary formalism, and two orbitals. -/
theorem C80_example : ∃ (o : Options) (expansion : List (ℤ × List OpName)) (calls : List (List Term × ℚ)) (out : List Term),
    NestedRun exMachine o 2 [1] true false expansion calls out ∧ o.forCommutator = false ∧ fockSpace.CumulantsUpTo o.maxCu ∧ o.minOpen ≤ 0 ∧
    ((4 + 2 * 1 * 2 : Nat) : Int) ≤ o.maxOpen ∧
    fockSpace.SlotSymmetric true o.hermitian ∧ fockSpace.Physical coreVirtual ∧ fockSpace.ActiveCumulants coreVirtual ∧
    fockSpace.NoActiveAmplitudes coreVirtual ∧ Fermions twoFermions ∧ fockSpace.NormalOrdered twoFermions ∧
    nestedCommutator
      (fockSpace.hamiltonianPart (Finset.univ.filter fun o => coreVirtual.spin o = false) 1 +
        fockSpace.hamiltonianPart (Finset.univ.filter fun o => coreVirtual.spin o = false) 2)
      (fockSpace.generator coreVirtual false true [1]) 2 ≠ 0 := by
  obtain ⟨c, l, p⟩ := exMachine_ok
  let o : Options := { maxCu := 1, maxOpen := 8, minOpen := 0, forCommutator := false, expandHole := true, nProcess := 2, hermitian := true }
  obtain ⟨-, ⟨e, he⟩, hex⟩ := C76_nested_commutator_cc _ c l p o (by decide) 2 [1] (by simp) true false
  obtain ⟨calls, out, h⟩ := hex e he
  obtain ⟨w1, w2, w3, w4, w5⟩ := fockSpace_world
  exact ⟨o, e, calls, out, h, rfl, w5, by decide, by decide, w1, w2, w3, w4, twoFermions_fermions, fockSpace_normalOrdered, by decide +kernel⟩

end Dsrg
