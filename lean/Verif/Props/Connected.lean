import Verif.Lemmas.ConnectedValue
import Verif.Props.Transformation

/-!
Properties C66, C74 and C80 for `for_commutator=True`, the default of `nested_commutator_cc`: only contractions that connect all operators are kept.
-/

namespace Dsrg

section
variable {O R M : Type} [Fintype O] [DecidableEq O] [Inhabited O] [CommRing R] [Algebra ℚ R] [AddCommGroup M] [Module R M]

/-- C66 for `for_commutator=True`: the value of the terms that `contract_terms` returns is the sum of the allowed contractions that connect all
operators and contain a pair contraction.  Partial: products of at most three operators that are not numbers, or products in which every elementary
contraction involves one and the same operator; otherwise the search can miss contractions (C31). -/
theorem C66_contract_terms_connected_partial (m : Machine) (hcanon : CanonContract m.canon) (hord : m.ord.Lawful) (o : Options)
    (hf : o.forCommutator = true) (terms : List Term) (h : OrdinaryFactors terms) (hk : ContractibleFactors terms) (h2 : 2 ≤ (properOps terms).length)
    (hall : (properOps terms).length ≤ 3 ∨ ∃ k, ∀ t, Elementary (properOps terms) o.maxCu t → Involves (properOps terms) k t)
    (scale : ℚ) (hc : ¬ Negligible (scale * (terms.map Term.coeff).prod)) (out : List Term) (hr : ContractRun m o terms scale out)
    (orb : Orbitals O) (I : Interp O R M) (hI : I.SlotSymmetric true o.hermitian) (hph : I.Physical orb) (hac : I.ActiveCumulants orb)
    (hna : I.NoActiveAmplitudes orb) :
    IsConnectedContraction I orb (scale * (terms.map Term.coeff).prod) (allTensors terms) (properOps terms) o.maxCu o.maxOpen o.minOpen
      (out.map fun t => I.value orb t.coeff t.tensors t.sqOp).sum := by
  have e : productCoeff terms scale = scale * (terms.map Term.coeff).prod := productCoeff_eq terms scale
  rw [← e] at hc ⊢
  rw [properOps_eq] at h2 hall ⊢
  have hG := goodOps_productOps h.ops
  obtain ⟨batches, hb, hv⟩ := hr.value hcanon hord h hk hc (by omega) hI hph hac hna
  unfold ContractionsRun at hb
  rw [if_pos hf] at hb
  obtain ⟨cs, h1, h3, h4, hperm⟩ := connected_spec hG hb
  have hA : ∀ c ∈ cs, Allowed (productOps terms) o.maxCu o.maxOpen o.minOpen c := fun c hc => (h3 c ⟨c, hc, List.Perm.refl _⟩).1
  refine ⟨cs, fun ts => relSign (baseOrder (productOps terms)) (arranged (productOps terms) ts), openOp (productOps terms), h1,
    fun ts => ⟨h3 ts, h4 hall ts⟩, fun c hc => isResult_of_proper hG ((hA c hc).proper hG), ?_⟩
  rw [hv, ← contraction_rows_value h o.expandHole _ hph hA]
  simp only [rowsValue_perm I _ hperm]

omit [Fintype O] [DecidableEq O] [Inhabited O] [CommRing R] [Algebra ℚ R] [AddCommGroup M] [Module R M] in
theorem ConnectsAll.perm {ops : List SqOp} {a b : List Tensor} (hp : a.Perm b) (h : ConnectsAll ops a) : ConnectsAll ops b := by
  intro S h1 h2
  obtain ⟨t, ht, h3⟩ := h S h1 h2
  exact ⟨t, hp.subset ht, h3⟩

omit [DecidableEq O] in
/-- The connected contractions of a product have a value. -/
theorem connectedContraction_exists {I : Interp O R M} {orb : Orbitals O} {c : ℚ} {ts : List Tensor} {ops : List SqOp} {maxCu maxOpen minOpen : Int} {V : M}
    (h : IsContraction I orb c ts ops maxCu maxOpen minOpen V) : ∃ V, IsConnectedContraction I orb c ts ops maxCu maxOpen minOpen V := by
  classical
  obtain ⟨cs, sign, rest, h1, h2, h3, rfl⟩ := h
  refine ⟨_, cs.filter fun c => decide (ConnectsAll ops c ∧ HasPair c), sign, rest, h1.sublist List.filter_sublist, fun ts => ?_,
    fun c hc => h3 c (List.mem_filter.1 hc).1, rfl⟩
  rw [← h2]
  have hpair : ∀ {a b : List Tensor}, a.Perm b → HasPair a → HasPair b := fun hp ⟨t, ht, e⟩ => ⟨t, hp.subset ht, e⟩
  constructor
  · rintro ⟨c, hc, hp⟩
    obtain ⟨hc, hd⟩ := List.mem_filter.1 hc
    rw [decide_eq_true_eq] at hd
    exact ⟨⟨c, hc, hp⟩, hd.1.perm hp, hpair hp hd.2⟩
  · rintro ⟨⟨c, hc, hp⟩, hd1, hd2⟩
    exact ⟨c, List.mem_filter.2 ⟨hc, decide_eq_true ⟨hd1.perm hp.symm, hpair hp.symm hd2⟩⟩, hp⟩

omit [DecidableEq O] in
theorem IsConnectedContraction.scale {I : Interp O R M} {orb : Orbitals O} {c : ℚ} {ts : List Tensor} {ops : List SqOp} {maxCu maxOpen minOpen : Int} {V : M}
    (h : IsConnectedContraction I orb c ts ops maxCu maxOpen minOpen V) (a : ℚ) :
    IsConnectedContraction I orb (a * c) ts ops maxCu maxOpen minOpen ((algebraMap ℚ R a) • V) := by
  obtain ⟨cs, sign, rest, h1, h2, h3, rfl⟩ := h
  refine ⟨cs, sign, rest, h1, h2, h3, ?_⟩
  rw [List.smul_sum, List.map_map]
  congr 1
  refine List.map_congr_left fun x _ => ?_
  simp only [Function.comp_apply, Interp.value]
  rw [smul_smul, ← map_mul]
  congr 2
  ring

end

/-! ### Products in which every contraction involves the Hamiltonian -/

theorem only_hamiltonian {w : List OpName} (h : w.countP OpName.isH ≤ 1) :
    ∃ k, ∀ (j : Nat) (x : OpName), w[j]? = some x → j ≠ k → x.isH = false := by
  induction w with
  | nil => exact ⟨0, by simp⟩
  | cons y w ih =>
    rw [List.countP_cons] at h
    cases hy : y.isH with
    | true =>
      refine ⟨0, fun j x hx hj => ?_⟩
      obtain ⟨j, rfl⟩ := Nat.exists_eq_succ_of_ne_zero hj
      rw [List.getElem?_cons_succ] at hx
      rw [hy, if_pos rfl] at h
      have h0 := List.countP_eq_zero.1 (show w.countP OpName.isH = 0 by omega) x (List.mem_of_getElem? hx)
      simpa using h0
    | false =>
      obtain ⟨k, hk⟩ := ih (by omega)
      refine ⟨k + 1, fun j x hx hj => ?_⟩
      cases j with
      | zero => rw [List.getElem?_cons_zero] at hx; injection hx with hx; rw [← hx]; exact hy
      | succ j => exact hk j x (by simpa using hx) (by omega)

theorem nestedWords_symbols {α : Type} {hs : List α} {amps : List (ℤ × α)} : ∀ {n : Nat} {w : List α}, w ∈ (nestedWords hs amps n).map Prod.snd →
    ∀ x ∈ w, x ∈ hs ∨ x ∈ amps.map Prod.snd := by
  intro n
  induction n with
  | zero =>
    intro w hw x hx
    obtain ⟨p, hp, rfl⟩ := List.mem_map.1 hw
    obtain ⟨y, hy, rfl⟩ := List.mem_map.1 hp
    simp only [List.mem_singleton] at hx
    exact Or.inl (hx ▸ hy)
  | succ n ih =>
    intro w hw x hx
    obtain ⟨q, hq, rfl⟩ := List.mem_map.1 hw
    obtain ⟨p, hp, hq⟩ := List.mem_flatMap.1 hq
    obtain ⟨a, ha, hq⟩ := List.mem_flatMap.1 hq
    have ih := ih (List.mem_map_of_mem hp)
    simp only [List.mem_cons, List.not_mem_nil, or_false] at hq
    rcases hq with rfl | rfl
    · rcases List.mem_append.1 hx with hx | hx
      · exact ih x hx
      · rw [List.mem_singleton.1 hx]; exact Or.inr (List.mem_map_of_mem ha)
    · rcases List.mem_cons.1 hx with rfl | hx
      · exact Or.inr (List.mem_map_of_mem ha)
      · exact ih x hx

/-- With a single-determinant reference and excitation operators only, every contraction involves the Hamiltonian. -/
theorem common_hamiltonian {w : List OpName} {terms : List Term} (h : List.Forall₂ (IsFactor true) w terms) (h1 : w.countP OpName.isH ≤ 1)
    (hT : ∀ x ∈ w, x.isH = false → ∃ k, x = .T k) (maxCu : Int) :
    ∃ k, ∀ t, Elementary (terms.map Term.sqOp) maxCu t → Involves (terms.map Term.sqOp) k t := by
  obtain ⟨k, hk⟩ := only_hamiltonian h1
  have hops : ∀ (j : Nat) (op : SqOp), (terms.map Term.sqOp)[j]? = some op → j ≠ k →
      (∀ i ∈ op.upper.list, i.space.kind = .v) ∧ ∀ i ∈ op.lower.list, i.space.kind = .c := by
    intro j op hop hj
    rw [List.getElem?_map, Option.map_eq_some_iff] at hop
    obtain ⟨t, ht, rfl⟩ := hop
    have hjl : j < w.length := by rw [h.length_eq]; exact (List.getElem?_eq_some_iff.1 ht).1
    have hx := List.getElem?_eq_getElem hjl
    have hf : IsFactor true w[j] t := by
      have := h.get hjl (by rw [← h.length_eq]; exact hjl)
      have e := (List.getElem?_eq_some_iff.1 ht).2
      simpa [e] using this
    obtain ⟨n, e⟩ := hT _ (List.getElem_mem hjl) (hk j _ hx hj)
    rw [e] at hf
    obtain ⟨start, hf⟩ := hf
    obtain ⟨t', x, k1, k2, k3, k4, k5, k6, k7, k8, -⟩ := C38_cluster n start true ['T'] 1 ⟨.c, false⟩ ⟨.v, false⟩ .spinOrbital rfl fun _ => rfl
    simp only [if_true] at hf
    rw [hf] at k1
    injection k1 with k1
    subst k1
    rw [k7, k8, k5, k6]
    simp only [if_true]
    exact ⟨fun i hi => by rw [(mem_consecutive.1 hi).1], fun i hi => by rw [(mem_consecutive.1 hi).1]⟩
  refine ⟨k, fun t ht => ?_⟩
  obtain ⟨key, ⟨i, j, left, right, hij, hi, hj, ⟨u, hu, l, hl, ⟨e, he, h1, h2⟩, rfl, rfl⟩ | ⟨l, hl, u, hu, ⟨e, he, h1, h2⟩, rfl, rfl⟩⟩ |
    ⟨cre, ann, hc, ha, hlen, h2, -, -, rfl, rfl⟩⟩ := ht
  · by_cases hik : i = k
    · subst hik
      exact ⟨left, hi, Or.inl ⟨u, by simp [density], hu⟩⟩
    · rw [(hops i left hi hik).1 u hu] at h1
      exfalso
      revert h1 he; cases e <;> decide
  · by_cases hik : i = k
    · subst hik
      exact ⟨left, hi, Or.inr ⟨l, by simp [density], hl⟩⟩
    · rw [(hops i left hi hik).2 l hl] at h2
      exfalso
      revert h2 he; cases e <;> decide
  · obtain ⟨⟨j, i⟩, hx⟩ := List.exists_mem_of_length_pos (l := cre) (by omega)
    have hx' := hc.subset hx
    unfold cumulantLegs at hx'
    obtain ⟨op, hop, hx'⟩ := List.mem_flatMap.1 hx'
    obtain ⟨i', hi', e⟩ := List.mem_map.1 hx'
    injection e with e1 e2
    subst e1 e2
    have hop := List.mem_zipIdx_iff_getElem?.1 (show (op.1, op.2) ∈ _ from hop)
    obtain ⟨hi', hd⟩ := List.mem_filter.1 hi'
    rw [decide_eq_true_eq] at hd
    by_cases hjk : op.2 = k
    · rw [← hjk]
      exact ⟨op.1, hop, Or.inl ⟨i', by simpa [density] using ⟨_, hx⟩, hi'⟩⟩
    · exact absurd ((hops _ _ hop hjk).1 i' hi') hd.2

section
variable {O R M : Type} [Fintype O] [DecidableEq O] [Inhabited O] [CommRing R] [Algebra ℚ R] [AddCommGroup M] [Module R M]

/-- The words of a run of `nested_commutator_cc` stand for their connected contractions as soon as `contract_terms` returns the connected contractions
of every product of as many factors. -/
theorem nestedRun_connected {m : Machine} (hcanon : CanonContract m.canon) (hord : m.ord.Lawful) {o : Options}
    {level : Nat} (hl : 1 ≤ level) {levels : List Nat} {K : Nat} (hK : ∀ k ∈ levels, 1 ≤ k ∧ k ≤ K)
    (hsize : level.factorial * (4 * (K.factorial ^ 2) ^ level) ≤ 10 ^ 15) {unitary singleRef : Bool}
    {expansion : List (ℤ × List OpName)} {calls : List (List Term × ℚ)} {out : List Term}
    (h : NestedRun m o level levels unitary singleRef expansion calls out)
    {orb : Orbitals O} {I : Interp O R M} (hph : I.Physical orb)
    (hprod : ∀ w ∈ (nestedWords [.H 1, .H 2] (ampSymbols levels unitary) level).map Prod.snd, ∀ terms, List.Forall₂ (IsFactor singleRef) w terms →
      OrdinaryFactors terms → ContractibleFactors terms → properOps terms = terms.map Term.sqOp → terms.length = level + 1 →
      ∀ (scale : ℚ) (out : List Term), ¬ Negligible (scale * (terms.map Term.coeff).prod) → ContractRun m o terms scale out →
        IsConnectedContraction I orb (scale * (terms.map Term.coeff).prod) (allTensors terms) (properOps terms) o.maxCu o.maxOpen o.minOpen
          (out.map fun t => I.value orb t.coeff t.tensors t.sqOp).sum) :
    ∃ W : List OpName → M,
      (∀ w ∈ (nestedWords [.H 1, .H 2] (ampSymbols levels unitary) level).map Prod.snd,
        IsConnectedWordValue I orb singleRef o.maxCu o.maxOpen o.minOpen w (W w)) ∧
      (out.map fun t => I.value orb t.coeff t.tensors t.sqOp).sum =
        (algebraMap ℚ R (1 / level.factorial)) • ((nestedWords [.H 1, .H 2] (ampSymbols levels unitary) level).map fun p => p.1 • W p.2).sum := by
  refine nestedRun_value hcanon hord hl hK hsize h orb I fun w hw terms ht g1 g2 g3 g4 => ?_
  have ho := ordinary_of_good g1 g2
  have hfac := nestedFactors_isFactor ht
  refine ⟨?_, fun scale out hs hn hr => ?_⟩
  · obtain ⟨V, hV⟩ := contraction_exists ho o.maxCu o.maxOpen o.minOpen (terms.map Term.coeff).prod hph
    obtain ⟨V, hV⟩ := connectedContraction_exists hV
    exact ⟨V, terms, hfac, g2, by rw [← g3]; exact hV⟩
  · have hV := hprod w hw terms hfac ho (contractible_of_good g1 g2) g3 g4 scale out hn hr
    refine ⟨(algebraMap ℚ R scale⁻¹) • I.listValue orb out, ⟨terms, hfac, g2, ?_⟩, ?_⟩
    · have := hV.scale scale⁻¹
      rw [g3, ← mul_assoc, inv_mul_cancel₀ hs, one_mul] at this
      exact this
    · rw [smul_smul, ← map_mul, mul_inv_cancel₀ hs, map_one, one_smul]

/-- C74 for `for_commutator=True`: every product of the Hamiltonian and the amplitudes that occurs in the nested commutator stands for the sum of the
allowed contractions of these operators that connect them all and contain a pair contraction.  Partial: at most two commutators, or excitation
operators only and a single-determinant reference; otherwise the search can miss contractions (C31). -/
theorem C74_nested_connected_partial (m : Machine) (hcanon : CanonContract m.canon) (hord : m.ord.Lawful) (o : Options) (hf : o.forCommutator = true)
    (level : Nat) (hl : 1 ≤ level) (levels : List Nat) (K : Nat) (hK : ∀ k ∈ levels, 1 ≤ k ∧ k ≤ K)
    (hsize : level.factorial * (4 * (K.factorial ^ 2) ^ level) ≤ 10 ^ 15) (unitary singleRef : Bool)
    (hall : level ≤ 2 ∨ (singleRef = true ∧ unitary = false))
    (expansion : List (ℤ × List OpName)) (calls : List (List Term × ℚ)) (out : List Term)
    (h : NestedRun m o level levels unitary singleRef expansion calls out)
    (orb : Orbitals O) (I : Interp O R M) (hI : I.SlotSymmetric true o.hermitian) (hph : I.Physical orb) (hac : I.ActiveCumulants orb)
    (hna : I.NoActiveAmplitudes orb) :
    ∃ W : List OpName → M,
      (∀ w ∈ (nestedWords [.H 1, .H 2] (ampSymbols levels unitary) level).map Prod.snd,
        IsConnectedWordValue I orb singleRef o.maxCu o.maxOpen o.minOpen w (W w)) ∧
      (out.map fun t => I.value orb t.coeff t.tensors t.sqOp).sum =
        (algebraMap ℚ R (1 / level.factorial)) • ((nestedWords [.H 1, .H 2] (ampSymbols levels unitary) level).map fun p => p.1 • W p.2).sum := by
  refine nestedRun_connected hcanon hord hl hK hsize h hph fun w hw terms hfac ho hct g3 g4 scale out hn hr => ?_
  have hlen : 2 ≤ (properOps terms).length := by rw [g3, List.length_map, g4]; omega
  have hcommon : (properOps terms).length ≤ 3 ∨ ∃ k, ∀ t, Elementary (properOps terms) o.maxCu t → Involves (properOps terms) k t := by
    rcases hall with h2 | ⟨rfl, rfl⟩
    · left; rw [g3, List.length_map, g4]; omega
    · right
      obtain ⟨k1, -, -⟩ := nestedWords_mem hw
      rw [g3]
      refine common_hamiltonian hfac (by omega) (fun x hx hxh => ?_) _
      rcases nestedWords_symbols hw x hx with hx | hx
      · simp only [List.mem_cons, List.not_mem_nil, or_false] at hx
        rcases hx with rfl | rfl <;> simp [OpName.isH] at hxh
      · simp only [ampSymbols, Bool.false_eq_true, if_false, List.append_nil, List.map_map, List.mem_map, Function.comp_apply] at hx
        obtain ⟨k, -, rfl⟩ := hx
        exact ⟨k, rfl⟩
  exact C66_contract_terms_connected_partial m hcanon hord o hf terms ho hct hlen hcommon scale hn out hr orb I hI hph hac hna

end

section
variable {O R A : Type} [Fintype O] [DecidableEq O] [Inhabited O] [CommRing R] [Algebra ℚ R] [Ring A] [Algebra R A]

omit [Fintype O] [DecidableEq O] [Inhabited O] [CommRing R] [Algebra ℚ R] [Ring A] [Algebra R A] in
theorem nestedWords_bodies {levels : List Nat} {K : Nat} (hK : ∀ k ∈ levels, 1 ≤ k ∧ k ≤ K) {unitary : Bool} {n : Nat} {w : List OpName}
    (hw : w ∈ (nestedWords [OpName.H 1, OpName.H 2] (ampSymbols levels unitary) n).map Prod.snd) :
    (∀ x ∈ w, 1 ≤ x.bodies) ∧ 2 * (w.map OpName.bodies).sum ≤ 4 + 2 * K * n := by
  obtain ⟨k1, k2, k3⟩ := nestedWords_mem hw
  refine ⟨fun x hx => ?_, ?_⟩
  · cases hxh : x.isH with
    | true => rcases (k3 x hx).1 hxh with rfl | rfl <;> simp [OpName.bodies]
    | false => exact (hK _ ((k3 x hx).2 hxh)).1
  · have := sum_bodies (fun k hk => (hK k hk).2) k3
    rw [k1, k2] at this
    ring_nf at this ⊢
    omega

/-- When every word of the nested commutator stands for its connected contractions, the weighted sum is the nested commutator of the operators. -/
theorem connectedWords_nested {o : Options} {n : Nat} (hn : 1 ≤ n) {levels : List Nat} {K : Nat} (hK : ∀ k ∈ levels, 1 ≤ k ∧ k ≤ K)
    {unitary singleRef : Bool} {orb : Orbitals O} {I : Interp O R A} (hI : I.SlotSymmetric true o.hermitian) (hph : I.Physical orb)
    (hac : I.ActiveCumulants orb) {field : Bool × O → A} (hfield : Fermions field) (hno : I.NormalOrdered field)
    (hcu : I.CumulantsUpTo o.maxCu) (hmin : o.minOpen ≤ 0) (hmax : ((4 + 2 * K * n : Nat) : Int) ≤ o.maxOpen + 2) {W : List OpName → A}
    (hW : ∀ w ∈ (nestedWords [OpName.H 1, OpName.H 2] (ampSymbols levels unitary) n).map Prod.snd,
      IsConnectedWordValue I orb singleRef o.maxCu o.maxOpen o.minOpen w (W w)) :
    ((nestedWords [OpName.H 1, OpName.H 2] (ampSymbols levels unitary) n).map fun p => p.1 • W p.2).sum =
      nestedCommutator
        (I.hamiltonianPart (Finset.univ.filter fun o => orb.spin o = false) 1 + I.hamiltonianPart (Finset.univ.filter fun o => orb.spin o = false) 2)
        (I.generator orb singleRef unitary levels) n := by
  set F := stringsSum I.contraction (normalOrder field I.contraction) (PairConnB Prod.fst) with hF
  have e : ∀ p ∈ nestedWords [OpName.H 1, OpName.H 2] (ampSymbols levels unitary) n,
      p.1 • W p.2 = linearize F (p.1 • (p.2.map (I.free.symbolOperator orb singleRef)).prod) := by
    intro p hp
    obtain ⟨k1, k2⟩ := nestedWords_bodies hK (List.mem_map_of_mem hp)
    rw [(hW p.2 (List.mem_map_of_mem hp)).eq_linearize k1 hfield hno (hI.1 rfl) hph hac hcu hmin (Int.le_trans (Int.ofNat_le.2 k2) hmax), map_zsmul]
  rw [List.map_congr_left e]
  have e2 := nestedWords_sum [OpName.H 1, OpName.H 2] (ampSymbols levels unitary) (I.free.symbolOperator orb singleRef) n
  have e3 := congrArg (linearize F) e2
  rw [map_list_sum, List.map_map] at e3
  refine Eq.trans e3 ?_
  have hsp := symbol_span I orb singleRef
  rw [hF, connected_nested (contraction_rules hfield (hI.1 rfl) (hph.hole _)) ?_ ?_ hn]
  · congr 1
    · rw [map_list_sum, List.map_map]
      simp only [Function.comp_def, evaluate_symbol hno]
      simp [Interp.symbolOperator]
    · rw [map_list_sum, List.map_map]
      simp only [Function.comp_def, map_zsmul, evaluate_symbol hno]
      unfold ampSymbols Interp.generator
      cases unitary with
      | false => simp [Interp.symbolOperator, Function.comp_def]
      | true =>
        have : ∀ l : List Nat, (l.map fun k => -I.deexcitation orb singleRef k).sum = -(l.map fun k => I.deexcitation orb singleRef k).sum := by
          intro l
          induction l with
          | nil => simp
          | cons k l ih => simp only [List.map_cons, List.sum_cons, ih]; abel
        simp [Interp.symbolOperator, Function.comp_def, this, sub_eq_add_neg]
  · refine Submodule.span_mono (Set.image_subset_range _ {s | 2 ∣ s.length}) (list_sum_mem fun x hx => ?_)
    obtain ⟨y, -, rfl⟩ := List.mem_map.1 hx
    exact hsp y
  · refine list_sum_mem fun x hx => ?_
    obtain ⟨y, -, rfl⟩ := List.mem_map.1 hx
    exact zsmul_mem (hsp _) _

/-- C80 for `for_commutator=True`, the default: leaving out the contractions that do not connect all operators, and those without a pair contraction,
does not change the sum.  Partial: at most two commutators, or excitation operators only and a single-determinant reference. -/
theorem C80_nested_connected_partial (m : Machine) (hcanon : CanonContract m.canon) (hord : m.ord.Lawful) (o : Options) (hf : o.forCommutator = true)
    (n : Nat) (hn : 1 ≤ n) (levels : List Nat) (K : Nat) (hK : ∀ k ∈ levels, 1 ≤ k ∧ k ≤ K)
    (hsize : n.factorial * (4 * (K.factorial ^ 2) ^ n) ≤ 10 ^ 15) (unitary singleRef : Bool)
    (hall : n ≤ 2 ∨ (singleRef = true ∧ unitary = false))
    (expansion : List (ℤ × List OpName)) (calls : List (List Term × ℚ)) (out : List Term)
    (h : NestedRun m o n levels unitary singleRef expansion calls out)
    (orb : Orbitals O) (I : Interp O R A) (hI : I.SlotSymmetric true o.hermitian) (hph : I.Physical orb) (hac : I.ActiveCumulants orb)
    (hna : I.NoActiveAmplitudes orb) (field : Bool × O → A) (hfield : Fermions field) (hno : I.NormalOrdered field)
    (hcu : I.CumulantsUpTo o.maxCu) (hmin : o.minOpen ≤ 0) (hmax : ((4 + 2 * K * n : Nat) : Int) ≤ o.maxOpen + 2) :
    (out.map fun t => I.value orb t.coeff t.tensors t.sqOp).sum =
      algebraMap ℚ R (1 / (n.factorial : ℚ)) • nestedCommutator
        (I.hamiltonianPart (Finset.univ.filter fun o => orb.spin o = false) 1 + I.hamiltonianPart (Finset.univ.filter fun o => orb.spin o = false) 2)
        (I.generator orb singleRef unitary levels) n := by
  obtain ⟨W, hW, hsum⟩ := C74_nested_connected_partial m hcanon hord o hf n hn levels K hK hsize unitary singleRef hall expansion calls out h orb I hI hph hac hna
  rw [hsum]
  congr 1
  exact connectedWords_nested hn hK hI hph hac hfield hno hcu hmin hmax hW

end

/-- The hypotheses of C80 with connected contractions can be met: three commutators with one-body excitations and a single-determinant reference. -/
theorem C80_connected_example : ∃ (o : Options) (expansion : List (ℤ × List OpName)) (calls : List (List Term × ℚ)) (out : List Term),
    NestedRun exMachine o 3 [1] false true expansion calls out ∧ o.forCommutator = true ∧ fockSpace.CumulantsUpTo o.maxCu ∧ o.minOpen ≤ 0 ∧
    ((4 + 2 * 1 * 3 : Nat) : Int) ≤ o.maxOpen + 2 ∧
    fockSpace.SlotSymmetric true o.hermitian ∧ fockSpace.Physical coreVirtual ∧ fockSpace.ActiveCumulants coreVirtual ∧
    fockSpace.NoActiveAmplitudes coreVirtual ∧ Fermions twoFermions ∧ fockSpace.NormalOrdered twoFermions := by
  obtain ⟨c, l, p⟩ := exMachine_ok
  let o : Options := { maxCu := 1, maxOpen := 8, minOpen := 0, forCommutator := true, expandHole := true, nProcess := 2, hermitian := true }
  obtain ⟨-, ⟨e, he⟩, hex⟩ := C76_nested_commutator_cc _ c l p o (by decide) 3 [1] (by simp) false true
  obtain ⟨calls, out, h⟩ := hex e he
  obtain ⟨w1, w2, w3, w4, w5⟩ := fockSpace_world
  exact ⟨o, e, calls, out, h, rfl, w5, by decide, by decide, w1, w2, w3, w4, twoFermions_fermions, fockSpace_normalOrdered⟩

/-- The hypotheses of C80 with connected contractions can be met: two commutators in the unitary formalism; the result does not vanish. -/
theorem C80_connected_example_unitary : ∃ (o : Options) (expansion : List (ℤ × List OpName)) (calls : List (List Term × ℚ)) (out : List Term),
    NestedRun exMachine o 2 [1] true false expansion calls out ∧ o.forCommutator = true ∧ fockSpace.CumulantsUpTo o.maxCu ∧ o.minOpen ≤ 0 ∧
    ((4 + 2 * 1 * 2 : Nat) : Int) ≤ o.maxOpen + 2 ∧
    fockSpace.SlotSymmetric true o.hermitian ∧ fockSpace.Physical coreVirtual ∧ fockSpace.ActiveCumulants coreVirtual ∧
    fockSpace.NoActiveAmplitudes coreVirtual ∧ Fermions twoFermions ∧ fockSpace.NormalOrdered twoFermions ∧
    nestedCommutator
      (fockSpace.hamiltonianPart (Finset.univ.filter fun o => coreVirtual.spin o = false) 1 +
        fockSpace.hamiltonianPart (Finset.univ.filter fun o => coreVirtual.spin o = false) 2)
      (fockSpace.generator coreVirtual false true [1]) 2 ≠ 0 := by
  obtain ⟨c, l, p⟩ := exMachine_ok
  let o : Options := { maxCu := 1, maxOpen := 6, minOpen := 0, forCommutator := true, expandHole := true, nProcess := 2, hermitian := true }
  obtain ⟨-, ⟨e, he⟩, hex⟩ := C76_nested_commutator_cc _ c l p o (by decide) 2 [1] (by simp) true false
  obtain ⟨calls, out, h⟩ := hex e he
  obtain ⟨w1, w2, w3, w4, w5⟩ := fockSpace_world
  exact ⟨o, e, calls, out, h, rfl, w5, by decide, by decide, w1, w2, w3, w4, twoFermions_fermions, fockSpace_normalOrdered, by decide +kernel⟩

end Dsrg
