import Verif.Lemmas.Bch
import Verif.Props.ContractValue
import Verif.Props.Combine

/-!
The values of the terms of nested commutators.
-/

namespace Dsrg

/-! ### Coefficients -/

theorem Multiple.trans {c d x : ℚ} (h : Multiple d x) {n : ℤ} (hd : d = n * c) (hc : 1 / 10 ^ 15 ≤ |c|) : Multiple c x := by
  obtain ⟨k, rfl, -⟩ := h
  exact ⟨k * n, by rw [hd]; push_cast; ring, Or.inr hc⟩

theorem Multiple.neg {c x : ℚ} (h : Multiple (-c) x) : Multiple c x := by
  obtain ⟨k, rfl, h⟩ := h
  refine ⟨-k, by push_cast; ring, ?_⟩
  rw [abs_neg] at h
  simpa using h

theorem Multiple.combine {ty : IType} {c : ℚ} {l : List Term} (hreg : Regular ty l) (h : ∀ t, Multiple c (Dsrg.totalCoeff l t)) :
    ∀ r ∈ sortedTerms (combinedList l), Multiple c r.coeff := by
  intro r hr
  obtain ⟨t, -, -, e, -⟩ := (mem_combine_iff hreg r.visible).1 ⟨r, hr, rfl⟩
  have e : r.coeff = Dsrg.totalCoeff l t := e
  rw [e]
  exact h t

theorem ContractRun.multiple {m : Machine} {o : Options} {terms : List Term} (h : OrdinaryFactors terms) {scale : ℚ} {out : List Term}
    (h2 : ¬ (productOps terms).length < 2) (hr : ContractRun m o terms scale out) : ∀ r ∈ out, Multiple (productCoeff terms scale) r.coeff := by
  obtain ⟨batches, results, all, -, -, -, hres, -, ho, hreg, rfl⟩ := hr.spec h h2
  refine Multiple.combine hreg fun t => ?_
  rw [ho.total]
  exact Multiple.totalCoeff (fun r hr => (hres r hr).2) t

theorem CommutatorRun.multiple {m : Machine} {o : Options} {a b : Term} (h : OrdinaryFactors [a, b]) {scale : ℚ} {out : List Term}
    (hr : CommutatorRun m o a b scale out) : ∀ r ∈ out, Multiple (scale * (a.coeff * b.coeff)) r.coeff := by
  by_cases h2 : (productOps [a, b]).length < 2
  · rw [hr.trivial h h2]; simp
  have h2' : ¬ (productOps [b, a]).length < 2 := by rw [← (productOps_swap a b).length_eq]; exact h2
  have ec : productCoeff [a, b] scale = scale * (a.coeff * b.coeff) := by rw [productCoeff_eq]; simp
  have ec' : productCoeff [b, a] (-1 * scale) = -(scale * (a.coeff * b.coeff)) := by rw [productCoeff_eq]; simp [mul_comm]
  obtain ⟨o₁, o₂, h1, h3, hcb⟩ := hr.parts h2
  obtain ⟨-, r₁, -, -, -, m₁, l₁⟩ := h1.totals h h2
  obtain ⟨-, r₂, -, -, -, m₂, l₂⟩ := h3.totals h.swap h2'
  obtain ⟨k1, rfl, k2⟩ := CommutatorRun.total h l₁ l₂ (fun r hr => (m₁ r hr).1) (fun r hr => (m₂ r hr).1) hcb
  refine Multiple.combine k1 fun t => ?_
  rw [k2]
  rw [ec] at m₁
  rw [ec'] at m₂
  exact (Multiple.totalCoeff (fun r hr => (m₁ r hr).2) t).add (Multiple.totalCoeff (fun r hr => (m₂ r hr).2.neg) t)

theorem combine_multiple {c : ℚ} {l out : List Term} (hg : ∀ t ∈ l, GoodTerm t) (hm : ∀ r ∈ l, Multiple c r.coeff) (h : combineTerms l = .ok out) :
    ∀ r ∈ out, Multiple c r.coeff := by
  rw [combineTerms_eq (regular_of_good hg)] at h
  injection h with h
  subst h
  exact Multiple.combine (regular_of_good hg) (Multiple.totalCoeff hm)

section
variable {O R M : Type} [Fintype O] [DecidableEq O] [Inhabited O] [CommRing R] [Algebra ℚ R] [AddCommGroup M] [Module R M]

/-- The sum of the values of a list of terms. -/
def Interp.listValue (I : Interp O R M) (orb : Orbitals O) (l : List Term) : M := (l.map fun t => I.value orb t.coeff t.tensors t.sqOp).sum

theorem listValue_append (I : Interp O R M) (orb : Orbitals O) (a b : List Term) : I.listValue orb (a ++ b) = I.listValue orb a + I.listValue orb b := by
  unfold Interp.listValue; rw [List.map_append, List.sum_append]

theorem combine_listValue {c : ℚ} {l out : List Term} (hg : ∀ t ∈ l, GoodTerm t) (hm : ∀ r ∈ l, Multiple c r.coeff) (h : combineTerms l = .ok out)
    (I : Interp O R M) (orb : Orbitals O) : I.listValue orb out = I.listValue orb l :=
  C49_value .spinOrbital l (regular_of_good hg) (fun t _ => (Multiple.totalCoeff hm t).not_negligible) out h orb I

theorem copies_listValue {l out : List Term} (h : (l.mapM fun t => t.fromTerm false false) = .ok out) (I : Interp O R M) (orb : Orbitals O) :
    I.listValue orb out = I.listValue orb l := by
  have := forall₂_of_mapM h
  clear h
  unfold Interp.listValue
  induction this with
  | nil => rfl
  | cons h _ ih =>
    obtain ⟨h1, h2, h3⟩ := fromTerm_copy h
    rw [List.map_cons, List.map_cons, List.sum_cons, List.sum_cons, ih, h2, h3, I.value_perm orb _ h1]

theorem IsContraction.scale {I : Interp O R M} {orb : Orbitals O} {c : ℚ} {ts : List Tensor} {ops : List SqOp} {maxCu maxOpen minOpen : Int} {V : M}
    (h : IsContraction I orb c ts ops maxCu maxOpen minOpen V) (a : ℚ) :
    IsContraction I orb (a * c) ts ops maxCu maxOpen minOpen ((algebraMap ℚ R a) • V) := by
  obtain ⟨cs, sign, rest, h1, h2, h3, rfl⟩ := h
  refine ⟨cs, sign, rest, h1, h2, h3, ?_⟩
  rw [List.smul_sum, List.map_map]
  congr 1
  refine List.map_congr_left fun x _ => ?_
  simp only [Function.comp_apply, Interp.value]
  rw [smul_smul, ← map_mul]
  congr 2
  ring

/-- The contractions of a product have a value. -/
theorem contraction_exists {terms : List Term} (h : OrdinaryFactors terms) (maxCu maxOpen minOpen : Int) (c : ℚ) {orb : Orbitals O} {I : Interp O R M}
    (hph : I.Physical orb) : ∃ V, IsContraction I orb c (allTensors terms) (properOps terms) maxCu maxOpen minOpen V := by
  have hG := goodOps_productOps h.ops
  obtain ⟨G, hG'⟩ := C34_general_total (productOps terms) hG maxCu maxOpen minOpen true false
  obtain ⟨cs, s1, s2, -⟩ := general_spec hG hG'
  exact ⟨_, isContraction_rows h maxCu maxOpen minOpen true c hph s1 s2⟩

/-- The value of `single_commutator`. -/
theorem commutator_listValue {m : Machine} (hcanon : CanonContract m.canon) (hord : m.ord.Lawful) {o : Options} {a b : Term}
    (ha : GoodTerm a) (hb : GoodTerm b) (hd : DisjointLabels a b) {scale : ℚ} (hc : ¬ Negligible (scale * (a.coeff * b.coeff))) {out : List Term}
    (hr : CommutatorRun m o a b scale out) {orb : Orbitals O} {I : Interp O R M} (hI : I.SlotSymmetric true o.hermitian) (hph : I.Physical orb)
    (hac : I.ActiveCumulants orb) (hna : I.NoActiveAmplitudes orb) :
    IsCommutatorValue I orb scale o.maxCu o.maxOpen o.minOpen a b (I.listValue orb out) := by
  have hab : ∀ t ∈ [a, b], GoodTerm t := by simp [ha, hb]
  have dab : [a, b].Pairwise DisjointLabels := by simpa using hd
  have ho := ordinary_of_good hab dab
  by_cases h1 : a.sqOp.upper.list = [] ∧ a.sqOp.lower.list = []
  · refine Or.inl ⟨Or.inl h1, ?_⟩
    have : out = [] := hr.trivial ho (by
      rw [← properOps_eq]
      unfold properOps
      simp only [List.map_cons, List.map_nil, List.filter_cons, List.filter_nil]
      rw [if_neg (by simp [h1])]
      split <;> simp)
    rw [this]; rfl
  by_cases h2 : b.sqOp.upper.list = [] ∧ b.sqOp.lower.list = []
  · refine Or.inl ⟨Or.inr h2, ?_⟩
    have : out = [] := hr.trivial ho (by
      rw [← properOps_eq]
      unfold properOps
      simp only [List.map_cons, List.map_nil, List.filter_cons, List.filter_nil]
      rw [if_neg (c := decide (b.sqOp.upper.list ≠ [] ∨ b.sqOp.lower.list ≠ []) = true) (by simp [h2])]
      split <;> simp)
    rw [this]; rfl
  exact Or.inr ⟨by tauto, C66_single_commutator m hcanon hord o a b ho (contractible_of_good hab dab) (by tauto) (by tauto)
    (fun _ => Or.inl (by rw [ha.bal]; exact ⟨_, rfl⟩)) scale hc out hr orb I hI hph hac hna⟩

/-- The values of the loop over pairs. -/
theorem commutators_listValue {m : Machine} (hcanon : CanonContract m.canon) (hord : m.ord.Lawful) {o : Options} {scale : ℚ} {c : ℚ}
    (hc : 1 / 10 ^ 15 ≤ |c|) {orb : Orbitals O} {I : Interp O R M} (hI : I.SlotSymmetric true o.hermitian) (hph : I.Physical orb)
    (hac : I.ActiveCumulants orb) (hna : I.NoActiveAmplitudes orb) : ∀ {pairs : List (Term × Term)} {out : List Term},
    (∀ p ∈ pairs, GoodTerm p.1 ∧ GoodTerm p.2 ∧ DisjointLabels p.1 p.2 ∧ ∃ n : ℤ, scale * (p.1.coeff * p.2.coeff) = n * c) →
    CommutatorsRun m o scale pairs out → (∀ r ∈ out, Multiple c r.coeff) ∧
    ∃ F, List.Forall₂ (fun p f => IsCommutatorValue I orb scale o.maxCu o.maxOpen o.minOpen p.1 p.2 f) pairs F ∧ I.listValue orb out = F.sum := by
  intro pairs
  induction pairs with
  | nil =>
    intro out _ hr
    rw [show out = [] from hr]
    exact ⟨by simp, [], List.Forall₂.nil, rfl⟩
  | cons p pairs ih =>
    intro out h hr
    obtain ⟨o₁, o₂, h1, h2, rfl⟩ := hr
    obtain ⟨ga, gb, hd, n, hn⟩ := h p (by simp)
    obtain ⟨i1, F, i2, i3⟩ := ih (fun q hq => h q (by simp [hq])) h2
    have hm : Multiple c (scale * (p.1.coeff * p.2.coeff)) := ⟨n, hn, Or.inr hc⟩
    have ho := ordinary_of_good (terms := [p.1, p.2]) (by simp [ga, gb]) (by simpa using hd)
    refine ⟨?_, I.listValue orb o₁ :: F, List.Forall₂.cons (commutator_listValue hcanon hord ga gb hd hm.not_negligible h1 hI hph hac hna) i2, ?_⟩
    · intro r hr
      rcases List.mem_append.1 hr with hr | hr
      · exact (CommutatorRun.multiple ho h1 r hr).trans hn hc
      · exact i1 r hr
    · rw [listValue_append, i3, List.sum_cons]

end

end Dsrg
