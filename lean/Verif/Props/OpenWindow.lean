import Verif.Props.Commutators
import Verif.Props.Transformation
import Verif.Lemmas.OpenWindow
import Verif.Lemmas.Cumulants

/-!
Properties C101, C102 and C103: what the limits of the number of open operators leave of a product or of a commutator, and what the terms without
operators stand for.
-/

namespace Dsrg

section
variable {O R A B : Type} [Fintype O] [DecidableEq O] [Inhabited O] [CommRing R] [Algebra ℚ R] [Ring A] [Algebra R A] [AddCommGroup B] [Module R B]

/-- C101 (`contract_terms`): the values of the returned terms add up to the product of the values of the given terms, except for normal-ordered
strings with fewer than `min_n_open` or more than `max_n_open` operators: every linear map that ignores these strings takes the same value on
both. -/
theorem C101_contract_terms (m : Machine) (hcanon : CanonContract m.canon) (hord : m.ord.Lawful) (o : Options) (hf : o.forCommutator = false)
    (terms : List Term) (h : OrdinaryFactors terms) (hk : ContractibleFactors terms) (hd : terms.Pairwise DisjointLabels)
    (scale : ℚ) (hc : ¬ Negligible (scale * (terms.map Term.coeff).prod)) (out : List Term) (hr : ContractRun m o terms scale out)
    (orb : Orbitals O) (I : Interp O R A) (hI : I.SlotSymmetric true o.hermitian) (hph : I.Physical orb) (hac : I.ActiveCumulants orb)
    (hna : I.NoActiveAmplitudes orb) (field : Bool × O → A) (hfield : Fermions field) (hno : I.NormalOrdered field) (hcu : I.CumulantsUpTo o.maxCu)
    (f : A →ₗ[R] B) (hi : I.Ignores f o.maxOpen o.minOpen) :
    f (out.map fun t => I.value orb t.coeff t.tensors t.sqOp).sum =
      f (algebraMap ℚ R scale • (terms.map fun t => I.value orb t.coeff t.tensors t.sqOp).prod) := by
  by_cases h2 : (productOps terms).length < 2
  · match terms, hr, h2 with
    | first :: rest, hr, h2 =>
      unfold ContractRun at hr
      simp only [if_pos h2] at hr
      obtain ⟨t, ht, rfl⟩ := hr
      rw [← properOps_eq] at h2 ht
      rw [← trivial_value h2 hd hno orb scale]
      obtain ⟨-, -, -, rfl⟩ := Term.make_ok.1 ht
      rw [List.map_singleton, List.sum_singleton, productCoeff_eq]
      exact congrArg f (I.value_perm orb _ (sortTensors_perm _) _)
  have h2 : 2 ≤ (properOps terms).length := by rw [properOps_eq]; omega
  have hV := C66_contract_terms m hcanon hord o hf terms h hk h2 scale hc out hr orb I hI hph hac hna
  refine hV.window ?_ hd hfield hno (hI.1 rfl) hph hac hcu hi
  rw [properOps_eq]; exact goodOps_productOps h.ops

/-- C101 (`single_commutator`): the same for the commutator of two terms, in both modes. -/
theorem C101_single_commutator (m : Machine) (hcanon : CanonContract m.canon) (hord : m.ord.Lawful) (o : Options)
    (a b : Term) (h : OrdinaryFactors [a, b]) (hk : ContractibleFactors [a, b]) (hd : DisjointLabels a b)
    (heven : o.forCommutator = true → Even (a.sqOp.upper.list.length + a.sqOp.lower.list.length) ∨
      Even (b.sqOp.upper.list.length + b.sqOp.lower.list.length))
    (scale : ℚ) (hc : ¬ Negligible (scale * (a.coeff * b.coeff))) (out : List Term) (hr : CommutatorRun m o a b scale out)
    (orb : Orbitals O) (I : Interp O R A) (hI : I.SlotSymmetric true o.hermitian)
    (hph : I.Physical orb) (hac : I.ActiveCumulants orb) (hna : I.NoActiveAmplitudes orb) (field : Bool × O → A) (hfield : Fermions field)
    (hno : I.NormalOrdered field) (hcu : I.CumulantsUpTo o.maxCu) (f : A →ₗ[R] B) (hi : I.Ignores f o.maxOpen o.minOpen) :
    f (out.map fun t => I.value orb t.coeff t.tensors t.sqOp).sum =
      f (algebraMap ℚ R scale • (I.value orb a.coeff a.tensors a.sqOp * I.value orb b.coeff b.tensors b.sqOp -
        I.value orb b.coeff b.tensors b.sqOp * I.value orb a.coeff a.tensors a.sqOp)) := by
  refine IsCommutatorValue.window h.ops hd hfield hno (hI.1 rfl) hph hac hcu hi ?_
  by_cases he : (a.sqOp.upper.list = [] ∧ a.sqOp.lower.list = []) ∨ (b.sqOp.upper.list = [] ∧ b.sqOp.lower.list = [])
  · refine Or.inl ⟨he, ?_⟩
    have : out = [] := hr.trivial h (by
      rw [← properOps_eq]
      unfold properOps
      simp only [List.map_cons, List.map_nil, List.filter_cons, List.filter_nil]
      rcases he with he | he
      · rw [if_neg (by simp [he])]
        split <;> simp
      · rw [if_neg (c := decide (b.sqOp.upper.list ≠ [] ∨ b.sqOp.lower.list ≠ []) = true) (by simp [he])]
        split <;> simp)
    rw [this]; rfl
  · refine Or.inr ⟨he, C66_single_commutator m hcanon hord o a b h hk (by tauto) (by tauto) heven scale hc out hr orb I hI hph hac hna⟩

theorem linear_window {m : Machine} (hcanon : CanonContract m.canon) (hord : m.ord.Lawful) {o : Options} {lefts rights : List Term} {scale : ℚ}
    (hg : ∀ l ∈ lefts, ∀ r ∈ rights, GoodTerm l ∧ GoodTerm r ∧ DisjointLabels l r) {c : ℚ} (hc : 1 / 10 ^ 15 ≤ |c|)
    (hcoeff : ∀ l ∈ lefts, ∀ r ∈ rights, ∃ n : ℤ, scale * (l.coeff * r.coeff) = n * c) {out : List Term} {all : List Term}
    (h1 : CommutatorsRun m o scale (lefts.flatMap fun l => rights.map fun r => (l, r)) all) (h2 : combineTerms all = .ok out)
    {orb : Orbitals O} {I : Interp O R A} (hI : I.SlotSymmetric true o.hermitian) (hph : I.Physical orb)
    (hac : I.ActiveCumulants orb) (hna : I.NoActiveAmplitudes orb) {field : Bool × O → A} (hfield : Fermions field) (hno : I.NormalOrdered field)
    (hcu : I.CumulantsUpTo o.maxCu) {f : A →ₗ[R] B} (hi : I.Ignores f o.maxOpen o.minOpen) :
    f (I.listValue orb out) =
      f (algebraMap ℚ R scale • (I.listValue orb lefts * I.listValue orb rights - I.listValue orb rights * I.listValue orb lefts)) := by
  have hp : ∀ p ∈ lefts.flatMap fun l => rights.map fun r => (l, r), p.1 ∈ lefts ∧ p.2 ∈ rights := by
    intro p hp
    obtain ⟨l, hl, hp⟩ := List.mem_flatMap.1 hp
    obtain ⟨r, hr, rfl⟩ := List.mem_map.1 hp
    exact ⟨hl, hr⟩
  obtain ⟨m1, F, m2, m3⟩ := commutators_listValue hcanon hord hc hI hph hac hna (fun p hpm => by
    obtain ⟨a, b⟩ := hp p hpm
    obtain ⟨g1, g2, g3⟩ := hg _ a _ b
    exact ⟨g1, g2, g3, hcoeff _ a _ b⟩) h1
  have hgood : ∀ t ∈ all, GoodTerm t := by
    let f : Term → Nat := fun t => (labelsOf t.tensors t.sqOp).card
    have := CommutatorsRun.good hcanon hord (N := ((lefts.flatMap fun l => rights.map fun r => (l, r)).map fun p => f p.1 + f p.2).sum) (fun p hpm => by
      obtain ⟨a, b⟩ := hp p hpm
      obtain ⟨g1, g2, g3⟩ := hg _ a _ b
      exact ⟨g1, g2, g3, List.le_sum_of_mem (List.mem_map.2 ⟨p, hpm, rfl⟩)⟩) h1
    exact fun t ht => (this t ht).1
  rw [combine_listValue hgood m1 h2, m3]
  exact commutator_values_window hg hfield hno (hI.1 rfl) hph hac hcu hi m2

/-- C101 (`linear_commutator`): the same for the commutator of two sums of terms. -/
theorem C101_linear_commutator (m : Machine) (hcanon : CanonContract m.canon) (hord : m.ord.Lawful) (hcpu : 1 ≤ m.cpus) (o : Options)
    (lefts rights : List Term) (hl : ∀ l ∈ lefts, LibraryTerm m l) (hr : ∀ r ∈ rights, LibraryTerm m r)
    (hd : ∀ l ∈ lefts, ∀ r ∈ rights, DisjointLabels l r) (scale c : ℚ) (hc : 1 / 10 ^ 15 ≤ |c|)
    (hcoeff : ∀ l ∈ lefts, ∀ r ∈ rights, ∃ n : ℤ, scale * (l.coeff * r.coeff) = n * c) (out : List Term)
    (h : LinearCommutatorRun m o lefts rights scale out)
    (orb : Orbitals O) (I : Interp O R A) (hI : I.SlotSymmetric true o.hermitian) (hph : I.Physical orb) (hac : I.ActiveCumulants orb)
    (hna : I.NoActiveAmplitudes orb) (field : Bool × O → A) (hfield : Fermions field) (hno : I.NormalOrdered field)
    (hcu : I.CumulantsUpTo o.maxCu) (f : A →ₗ[R] B) (hi : I.Ignores f o.maxOpen o.minOpen) :
    f (out.map fun t => I.value orb t.coeff t.tensors t.sqOp).sum = f (algebraMap ℚ R scale •
      ((lefts.map fun t => I.value orb t.coeff t.tensors t.sqOp).sum * (rights.map fun t => I.value orb t.coeff t.tensors t.sqOp).sum -
        (rights.map fun t => I.value orb t.coeff t.tensors t.sqOp).sum * (lefts.map fun t => I.value orb t.coeff t.tensors t.sqOp).sum)) := by
  obtain ⟨all, h1, h2⟩ := h
  exact linear_window hcanon hord (o := { o with expandHole := true }) (fun l hlm r hrm => ⟨((hl l hlm).nice hcanon hord hcpu).1,
    ((hr r hrm).nice hcanon hord hcpu).1, hd l hlm r hrm⟩) hc hcoeff h1 h2 hI hph hac hna hfield hno hcu hi

theorem bch_step {m : Machine} (hcanon : CanonContract m.canon) (hord : m.ord.Lawful) {o : Options} {levels : List Nat} {K : Nat}
    (hK : levels.max? = some K) {unitary singleRef : Bool} {limits : List (Int × Int × Int)}
    (hsize : 4 * (K.factorial ^ 2) ^ limits.length * limits.length.factorial ≤ 10 ^ 15)
    {calls : List (List (Term × Term))} {outs : List (List Term)} (h : BchRun m o levels unitary singleRef limits calls outs)
    {orb : Orbitals O} {I : Interp O R A} (hI : I.SlotSymmetric true o.hermitian) (hph : I.Physical orb) (hac : I.ActiveCumulants orb)
    (hna : I.NoActiveAmplitudes orb) {field : Bool × O → A} (hfield : Fermions field) (hno : I.NormalOrdered field)
    {j : Nat} {maxCu minOpen maxOpen : Int} (hj : limits[j]? = some (maxCu, minOpen, maxOpen)) (hcu : I.CumulantsUpTo maxCu)
    {f : A →ₗ[R] B} (hi : I.Ignores f maxOpen minOpen) :
    ∃ before after, outs[j]? = some before ∧ outs[j + 1]? = some after ∧ (∀ t ∈ after, (t.nOpen : Int) ≤ maxOpen) ∧
      f (I.listValue orb after) = f (algebraMap ℚ R (1 / ((j + 1 : Nat) : ℚ)) •
        (I.listValue orb before * I.generator orb singleRef unitary levels - I.generator orb singleRef unitary levels * I.listValue orb before)) := by
  obtain ⟨maxLevel, start, rest, h1, h2, h3, rfl⟩ := h
  rw [hK] at h1
  injection h1 with h1
  subst h1
  have hmax : ∀ k ∈ levels, k ≤ K := fun k hk => (List.max?_eq_some_iff.1 hK).2 k hk
  have hcopy : List.Forall₂ (fun b c : Term => c.tensors.Perm b.tensors ∧ c.sqOp = b.sqOp ∧ c.coeff = b.coeff) start start :=
    List.forall₂_same.2 fun t _ => ⟨List.Perm.refl _, rfl, rfl⟩
  have hgood := (bchStart_good hord h2).1
  obtain ⟨b, a, am, F, k1, k2, k3, k4, k5⟩ := BchLevels.value hcanon hord hmax hI hph hac hna (i := 0) (before := start)
    hcopy (by simpa using hgood) (by simpa using bchStart_coeff hord h2) (by simpa using hsize) h3 j maxCu minOpen maxOpen hj
  obtain ⟨b', a', am', k1', k2', k3', k6, k7⟩ := BchLevels.shape hcanon hord hmax (i := 0) (before := start)
    hcopy (by simpa using hgood) h3 j maxCu minOpen maxOpen hj
  rw [k1] at k1'
  rw [k2] at k2'
  rw [k3] at k3'
  injection k1' with k1'
  injection k2' with k2'
  injection k3' with k3'
  subst k1' k2' k3'
  refine ⟨b, a, k1, k2, fun t ht => (k7 (b.map Term.nOpen).sum (fun l hl => List.le_sum_of_mem (List.mem_map.2 ⟨l, hl, rfl⟩)) t ht).1, ?_⟩
  rw [k5, commutator_values_window (fun l hl r hr => by
    obtain ⟨g1, g2, g3, -⟩ := k6 l hl r hr
    exact ⟨g1, g2, g3⟩) hfield hno (hI.1 rfl) hph hac hcu hi k4, clusterOperators_value k3, Nat.zero_add]

/-- C101 (`bch_cc_rsc`): level `j + 1` is the commutator of level `j` with the generator, divided by `j + 1`, except for normal-ordered strings whose
number of operators is outside the limits given for this level. -/
theorem C101_bch_cc_rsc (m : Machine) (hcanon : CanonContract m.canon) (hord : m.ord.Lawful) (o : Options) (levels : List Nat) (K : Nat)
    (hK : levels.max? = some K) (unitary singleRef : Bool) (limits : List (Int × Int × Int))
    (hsize : 4 * (K.factorial ^ 2) ^ limits.length * limits.length.factorial ≤ 10 ^ 15)
    (calls : List (List (Term × Term))) (outs : List (List Term)) (h : BchRun m o levels unitary singleRef limits calls outs)
    (orb : Orbitals O) (I : Interp O R A) (hI : I.SlotSymmetric true o.hermitian) (hph : I.Physical orb) (hac : I.ActiveCumulants orb)
    (hna : I.NoActiveAmplitudes orb) (field : Bool × O → A) (hfield : Fermions field) (hno : I.NormalOrdered field)
    (j : Nat) (maxCu minOpen maxOpen : Int) (hj : limits[j]? = some (maxCu, minOpen, maxOpen)) (hcu : I.CumulantsUpTo maxCu)
    (f : A →ₗ[R] B) (hi : I.Ignores f maxOpen minOpen) :
    ∃ before after, outs[j]? = some before ∧ outs[j + 1]? = some after ∧
      f (after.map fun t => I.value orb t.coeff t.tensors t.sqOp).sum = f (algebraMap ℚ R (1 / ((j + 1 : Nat) : ℚ)) •
        ((before.map fun t => I.value orb t.coeff t.tensors t.sqOp).sum * I.generator orb singleRef unitary levels -
          I.generator orb singleRef unitary levels * (before.map fun t => I.value orb t.coeff t.tensors t.sqOp).sum)) := by
  obtain ⟨b, a, h1, h2, -, h3⟩ := bch_step hcanon hord hK hsize h hI hph hac hna hfield hno hj hcu hi
  exact ⟨b, a, h1, h2, h3⟩

/-- The terms whose operators are within the limits are kept. -/
theorem Interp.Truncates.value {I : Interp O R A} {P : A →ₗ[R] A} {maxOpen minOpen : Int} (h : I.Truncates P maxOpen minOpen) {orb : Orbitals O}
    {t : Term} (h1 : minOpen ≤ t.nOpen) (h2 : (t.nOpen : Int) ≤ maxOpen) :
    P (I.value orb t.coeff t.tensors t.sqOp) = I.value orb t.coeff t.tensors t.sqOp := by
  unfold Interp.value
  rw [map_smul, map_sum]
  congr 1
  refine Finset.sum_congr rfl fun σ _ => ?_
  rw [map_smul]
  congr 1
  refine h.2 _ _ ?_ ?_
  · simpa [Term.nOpen, Indices.size] using h1
  · simpa [Term.nOpen, Indices.size] using h2

theorem Interp.Truncates.listValue {I : Interp O R A} {P : A →ₗ[R] A} {maxOpen minOpen : Int} (h : I.Truncates P maxOpen minOpen) {orb : Orbitals O}
    {ts : List Term} (h1 : ∀ t ∈ ts, minOpen ≤ t.nOpen ∧ (t.nOpen : Int) ≤ maxOpen) : P (I.listValue orb ts) = I.listValue orb ts := by
  unfold Interp.listValue
  rw [map_list_sum, List.map_map]
  congr 1
  exact List.map_congr_left fun t ht => h.value (h1 t ht).1 (h1 t ht).2

/-- C102: the terms that `bch_cc_rsc` returns for level `n` add up to the truncated nested commutator: `C₀` is the Hamiltonian without active orbitals
(see C57), and `Cₙ₊₁` is `1 / (n + 1) [Cₙ, A]` without the normal-ordered strings that have more operators than the limit of the level. -/
theorem C102_bch_cc_rsc (m : Machine) (hcanon : CanonContract m.canon) (hord : m.ord.Lawful) (o : Options) (levels : List Nat) (K : Nat)
    (hK : levels.max? = some K) (unitary singleRef : Bool) (limits : List (Int × Int × Int))
    (hsize : 4 * (K.factorial ^ 2) ^ limits.length * limits.length.factorial ≤ 10 ^ 15)
    (calls : List (List (Term × Term))) (outs : List (List Term)) (h : BchRun m o levels unitary singleRef limits calls outs)
    (orb : Orbitals O) (I : Interp O R A) (hI : I.SlotSymmetric true o.hermitian) (hph : I.Physical orb) (hac : I.ActiveCumulants orb)
    (hna : I.NoActiveAmplitudes orb) (field : Bool × O → A) (hfield : Fermions field) (hno : I.NormalOrdered field) (P : Nat → A →ₗ[R] A)
    (hP : ∀ j maxCu minOpen maxOpen, limits[j]? = some (maxCu, minOpen, maxOpen) →
      I.CumulantsUpTo maxCu ∧ minOpen ≤ 0 ∧ I.Truncates (P j) maxOpen minOpen) (n : Nat) (hn : n ≤ limits.length) :
    ∃ out, outs[n]? = some out ∧ (out.map fun t => I.value orb t.coeff t.tensors t.sqOp).sum = truncatedCommutator P
      (I.hamiltonianPart (Finset.univ.filter fun o => orb.spin o = false ∧ orb.elem o ≠ .active) 1 +
        I.hamiltonianPart (Finset.univ.filter fun o => orb.spin o = false ∧ orb.elem o ≠ .active) 2)
      (I.generator orb singleRef unitary levels) n := by
  induction n with
  | zero =>
    obtain ⟨maxLevel, start, rest, h1, h2, h3, rfl⟩ := h
    exact ⟨start, rfl, bchStart_operator hord h2 orb I⟩
  | succ n ih =>
    obtain ⟨before, e1, e2⟩ := ih (by omega)
    obtain ⟨⟨mc, mn, mx⟩, hj⟩ : ∃ x, limits[n]? = some x := ⟨_, List.getElem?_eq_getElem (by omega)⟩
    obtain ⟨p1, p2, p3⟩ := hP n mc mn mx hj
    obtain ⟨b, a, k1, k2, k3, k4⟩ := bch_step hcanon hord hK hsize h hI hph hac hna hfield hno hj p1 p3.1
    rw [e1] at k1
    injection k1 with k1
    subst k1
    refine ⟨a, k2, ?_⟩
    rw [p3.listValue fun t ht => ⟨by omega, k3 t ht⟩] at k4
    exact k4.trans (by rw [truncatedCommutator, ← e2]; rfl)

/-! ### Expectation values -/

omit [Fintype O] [Inhabited O] [Algebra ℚ R] in
/-- C103: the normal-ordered strings are those of the reference if and only if the densities of the interpretation are its cumulants: the cumulants
of all levels describe the expectation values of all products of operators exactly when every normal-ordered string but the empty one has the
expectation value zero. -/
theorem C103_cumulants (I : Interp O R A) (hI : I.Antisymmetric)
    (hole : ∀ a b, I.tensor .hole ['C'] [a] [b] = (if a = b then 1 else 0) - I.tensor .cumulant ['L'] [a] [b])
    (field : Bool × O → A) (hfield : Fermions field) (hno : I.NormalOrdered field) (mean : A →ₗ[R] R) :
    IsCumulantOf I.contraction field mean ↔ mean 1 = 1 ∧ ∀ u l : List O, u ++ l ≠ [] → mean (I.op u l) = 0 := by
  have rules := contraction_rules hfield hI hole
  by_cases h1 : mean 1 = 1
  · rw [cumulants_iff rules.odd mean h1]
    simp only [h1, true_and]
    constructor
    · intro h u l hul
      rw [hno]
      refine h _ ?_
      simp only [ne_eq, List.append_eq_nil_iff, List.map_eq_nil_iff, List.reverse_eq_nil_iff] at hul ⊢
      exact hul
    · intro h w hw
      obtain ⟨s, hs⟩ := normalOrder_perm rules (word_perm w) []
      rw [List.nil_append, List.nil_append, ← hno] at hs
      rw [hs, map_zsmul, h _ _ ?_, smul_zero]
      intro e
      have := congrArg List.length e
      rw [List.length_append, List.length_reverse, orbitalsOf_length] at this
      exact hw (List.length_eq_zero_iff.1 this)
  · exact ⟨fun h => absurd h.1 h1, fun h => absurd h.1 h1⟩

omit [Fintype O] [DecidableEq O] [Inhabited O] [Algebra ℚ R] in
theorem mean_ignores {I : Interp O R A} {mean : A →ₗ[R] R} (h : ∀ u l : List O, u ++ l ≠ [] → mean (I.op u l) = 0) {maxOpen minOpen : Int}
    (h1 : minOpen ≤ 0) (h2 : 0 ≤ maxOpen) : I.Ignores mean maxOpen minOpen := by
  intro u l hul
  refine h u l ?_
  rintro e
  obtain ⟨rfl, rfl⟩ := List.append_eq_nil_iff.1 e
  exact hul ⟨by simpa using h1, by simpa using h2⟩

theorem mean_value {I : Interp O R A} {field : Bool × O → A} (hno : I.NormalOrdered field) {mean : A →ₗ[R] R} (h0 : mean 1 = 1)
    (h : ∀ u l : List O, u ++ l ≠ [] → mean (I.op u l) = 0) (orb : Orbitals O) (t : Term) :
    mean (I.value orb t.coeff t.tensors t.sqOp) = if t.sqOp.upper.list = [] ∧ t.sqOp.lower.list = [] then I.number orb t else 0 := by
  unfold Interp.value Interp.number
  rw [map_smul, map_sum, smul_eq_mul]
  split
  · rename_i he
    congr 1
    refine Finset.sum_congr rfl fun σ _ => ?_
    rw [opval_empty hno _ he.1 he.2, map_smul, h0, smul_eq_mul, mul_one]
  · rename_i he
    rw [Finset.sum_eq_zero, mul_zero]
    intro σ _
    rw [map_smul, Interp.opval, h, smul_zero]
    simp only [ne_eq, List.append_eq_nil_iff, List.map_eq_nil_iff]
    exact he

theorem mean_list {I : Interp O R A} {field : Bool × O → A} (hno : I.NormalOrdered field) {mean : A →ₗ[R] R} (h0 : mean 1 = 1)
    (h : ∀ u l : List O, u ++ l ≠ [] → mean (I.op u l) = 0) (orb : Orbitals O) (ts : List Term) :
    ((ts.filter fun t => t.sqOp.upper.list = [] ∧ t.sqOp.lower.list = []).map (I.number orb)).sum =
      mean (ts.map fun t => I.value orb t.coeff t.tensors t.sqOp).sum := by
  induction ts with
  | nil => simp
  | cons t ts ih =>
    rw [List.map_cons, List.sum_cons, map_add, mean_value hno h0 h, ← ih, List.filter_cons]
    by_cases he : t.sqOp.upper.list = [] ∧ t.sqOp.lower.list = []
    · rw [if_pos (by simpa using he), if_pos he, List.map_cons, List.sum_cons]
    · rw [if_neg (by simpa using he), if_neg he, zero_add]

/-- C103 (`contract_terms`): the returned terms without operators add up to the expectation value of the product. -/
theorem C103_contract_terms (m : Machine) (hcanon : CanonContract m.canon) (hord : m.ord.Lawful) (o : Options) (hf : o.forCommutator = false)
    (terms : List Term) (h : OrdinaryFactors terms) (hk : ContractibleFactors terms) (hd : terms.Pairwise DisjointLabels)
    (scale : ℚ) (hc : ¬ Negligible (scale * (terms.map Term.coeff).prod)) (out : List Term) (hr : ContractRun m o terms scale out)
    (orb : Orbitals O) (I : Interp O R A) (hI : I.SlotSymmetric true o.hermitian) (hph : I.Physical orb) (hac : I.ActiveCumulants orb)
    (hna : I.NoActiveAmplitudes orb) (field : Bool × O → A) (hfield : Fermions field) (hno : I.NormalOrdered field) (hcu : I.CumulantsUpTo o.maxCu)
    (hmin : o.minOpen ≤ 0) (hmax : 0 ≤ o.maxOpen) (mean : A →ₗ[R] R) (hmean : IsCumulantOf I.contraction field mean) :
    ((out.filter fun t => t.sqOp.upper.list = [] ∧ t.sqOp.lower.list = []).map (I.number orb)).sum =
      mean (algebraMap ℚ R scale • (terms.map fun t => I.value orb t.coeff t.tensors t.sqOp).prod) := by
  obtain ⟨h0, h1⟩ := (C103_cumulants I (hI.1 rfl) (hph.hole _) field hfield hno mean).1 hmean
  rw [mean_list hno h0 h1]
  exact C101_contract_terms m hcanon hord o hf terms h hk hd scale hc out hr orb I hI hph hac hna field hfield hno hcu mean (mean_ignores h1 hmin hmax)

/-- C103 (`single_commutator`): the returned terms without operators add up to the expectation value of the commutator. -/
theorem C103_single_commutator (m : Machine) (hcanon : CanonContract m.canon) (hord : m.ord.Lawful) (o : Options)
    (a b : Term) (h : OrdinaryFactors [a, b]) (hk : ContractibleFactors [a, b]) (hd : DisjointLabels a b)
    (heven : o.forCommutator = true → Even (a.sqOp.upper.list.length + a.sqOp.lower.list.length) ∨
      Even (b.sqOp.upper.list.length + b.sqOp.lower.list.length))
    (scale : ℚ) (hc : ¬ Negligible (scale * (a.coeff * b.coeff))) (out : List Term) (hr : CommutatorRun m o a b scale out)
    (orb : Orbitals O) (I : Interp O R A) (hI : I.SlotSymmetric true o.hermitian)
    (hph : I.Physical orb) (hac : I.ActiveCumulants orb) (hna : I.NoActiveAmplitudes orb) (field : Bool × O → A) (hfield : Fermions field)
    (hno : I.NormalOrdered field) (hcu : I.CumulantsUpTo o.maxCu)
    (hmin : o.minOpen ≤ 0) (hmax : 0 ≤ o.maxOpen) (mean : A →ₗ[R] R) (hmean : IsCumulantOf I.contraction field mean) :
    ((out.filter fun t => t.sqOp.upper.list = [] ∧ t.sqOp.lower.list = []).map (I.number orb)).sum =
      mean (algebraMap ℚ R scale • (I.value orb a.coeff a.tensors a.sqOp * I.value orb b.coeff b.tensors b.sqOp -
        I.value orb b.coeff b.tensors b.sqOp * I.value orb a.coeff a.tensors a.sqOp)) := by
  obtain ⟨h0, h1⟩ := (C103_cumulants I (hI.1 rfl) (hph.hole _) field hfield hno mean).1 hmean
  rw [mean_list hno h0 h1]
  exact C101_single_commutator m hcanon hord o a b h hk hd heven scale hc out hr orb I hI hph hac hna field hfield hno hcu mean
    (mean_ignores h1 hmin hmax)

omit [Fintype O] [DecidableEq O] [Inhabited O] [CommRing R] [Algebra ℚ R] [Ring A] [Algebra R A] in
theorem BchRun.take {m : Machine} {o : Options} {levels : List Nat} {unitary singleRef : Bool} {limits : List (Int × Int × Int)}
    {calls : List (List (Term × Term))} {outs : List (List Term)} (h : BchRun m o levels unitary singleRef limits calls outs) (n : Nat) :
    BchRun m o levels unitary singleRef (limits.take n) (calls.take n) (outs.take (n + 1)) := by
  obtain ⟨maxLevel, start, rest, h1, h2, h3, rfl⟩ := h
  refine ⟨maxLevel, start, rest.take n, h1, h2, ?_, rfl⟩
  have : ∀ {limits : List (Int × Int × Int)} {i n : Nat} {pool : List Term} {calls : List (List (Term × Term))} {rest : List (List Term)},
      BchLevels m o levels unitary singleRef (maxLevel * 2) i pool limits calls rest →
      BchLevels m o levels unitary singleRef (maxLevel * 2) i pool (limits.take n) (calls.take n) (rest.take n) := by
    intro limits
    induction limits with
    | nil =>
      intro i n pool calls rest h
      obtain ⟨rfl, rfl⟩ := h
      simp only [List.take_nil]
      exact ⟨rfl, rfl⟩
    | cons x limits ih =>
      obtain ⟨mc, mn, mx⟩ := x
      intro i n pool calls rest h
      cases n with
      | zero => exact ⟨rfl, rfl⟩
      | succ n =>
        obtain ⟨amps, all, copies, out, pool', calls', outs', g1, g2, g3, g4, g5, g6, rfl, rfl⟩ := h
        exact ⟨amps, all, copies, out, pool', _, _, g1, g2, g3, g4, g5, ih g6, rfl, rfl⟩
  exact this h3

/-- C103 (`bch_cc_rsc`): the terms without operators of level `n + 1` add up to the contribution of the level to the energy, the expectation value of
`1 / (n + 1)! [...[[H, A], A]..., A]`, if the limits of the levels before cut off nothing but uncontracted products; for the level itself it is
enough that terms without operators are not cut off. -/
theorem C103_bch_cc_rsc (m : Machine) (hcanon : CanonContract m.canon) (hord : m.ord.Lawful) (o : Options) (levels : List Nat) (K : Nat)
    (hK : levels.max? = some K) (unitary singleRef : Bool) (limits : List (Int × Int × Int))
    (hsize : 4 * (K.factorial ^ 2) ^ limits.length * limits.length.factorial ≤ 10 ^ 15)
    (calls : List (List (Term × Term))) (outs : List (List Term)) (h : BchRun m o levels unitary singleRef limits calls outs)
    (orb : Orbitals O) (I : Interp O R A) (hI : I.SlotSymmetric true o.hermitian) (hph : I.Physical orb) (hac : I.ActiveCumulants orb)
    (hna : I.NoActiveAmplitudes orb) (field : Bool × O → A) (hfield : Fermions field) (hno : I.NormalOrdered field)
    (n : Nat) (maxCu minOpen maxOpen : Int) (hn : limits[n]? = some (maxCu, minOpen, maxOpen)) (hw : WideLimits I K 4 (limits.take n))
    (hcu : I.CumulantsUpTo maxCu) (hmin : minOpen ≤ 0) (hmax : 0 ≤ maxOpen) (mean : A →ₗ[R] R) (hmean : IsCumulantOf I.contraction field mean) :
    ∃ out, outs[n + 1]? = some out ∧ ((out.filter fun t => t.sqOp.upper.list = [] ∧ t.sqOp.lower.list = []).map (I.number orb)).sum =
      mean (algebraMap ℚ R (1 / ((n + 1).factorial : ℚ)) • nestedCommutator
        (I.hamiltonianPart (Finset.univ.filter fun o => orb.spin o = false ∧ orb.elem o ≠ .active) 1 +
          I.hamiltonianPart (Finset.univ.filter fun o => orb.spin o = false ∧ orb.elem o ≠ .active) 2)
        (I.generator orb singleRef unitary levels) (n + 1)) := by
  obtain ⟨h0, h1⟩ := (C103_cumulants I (hI.1 rfl) (hph.hole _) field hfield hno mean).1 hmean
  have hlt : n < limits.length := by
    by_contra hlt
    rw [List.getElem?_eq_none (by omega)] at hn
    exact absurd hn (by simp)
  obtain ⟨before, e1, e2⟩ := C79_level m hcanon hord o levels K hK unitary singleRef (limits.take n) (by
      refine le_trans ?_ hsize
      have hl : (limits.take n).length ≤ limits.length := by simp
      exact Nat.mul_le_mul (Nat.mul_le_mul_left _ (Nat.pow_le_pow_right (by positivity) hl)) (Nat.factorial_le hl))
    (calls.take n) (outs.take (n + 1)) (h.take n) orb I hI hph hac hna field hfield hno hw n (by simp; omega)
  rw [List.getElem?_take_of_lt (by omega)] at e1
  obtain ⟨b, a, k1, k2, -, k4⟩ := bch_step hcanon hord hK hsize h hI hph hac hna hfield hno hn hcu (mean_ignores h1 hmin hmax)
  rw [e1] at k1
  injection k1 with k1
  subst k1
  refine ⟨a, k2, ?_⟩
  rw [mean_list hno h0 h1]
  refine k4.trans (congrArg mean ?_)
  rw [show I.listValue orb before = _ from e2, nestedCommutator, smul_mul_assoc, mul_smul_comm, ← smul_sub, ← mul_smul, ← map_mul]
  congr 2
  rw [Nat.factorial_succ]
  have : (n.factorial : ℚ) ≠ 0 := by exact_mod_cast Nat.factorial_ne_zero n
  push_cast
  field_simp

/-- C101 for the terms of the library: both functions return, and what they return is right within the limits, for all limits. -/
theorem C101_library (m : Machine) (hcanon : CanonContract m.canon) (hord : m.ord.Lawful) (hcpu : 1 ≤ m.cpus) (o : Options) (hn : 1 ≤ o.nProcess)
    (a b : Term) (ha : LibraryTerm m a) (hb : LibraryTerm m b) (hd : DisjointLabels a b) (scale : ℚ)
    (hc : ¬ Negligible (scale * (a.coeff * b.coeff))) (orb : Orbitals O) (I : Interp O R A)
    (hI : I.SlotSymmetric true o.hermitian) (hph : I.Physical orb) (hac : I.ActiveCumulants orb) (hna : I.NoActiveAmplitudes orb)
    (field : Bool × O → A) (hfield : Fermions field) (hno : I.NormalOrdered field) (hcu : I.CumulantsUpTo o.maxCu)
    (f : A →ₗ[R] B) (hi : I.Ignores f o.maxOpen o.minOpen) :
    (o.forCommutator = false → (∃ out, ContractRun m o [a, b] scale out) ∧ ∀ out, ContractRun m o [a, b] scale out →
      f (out.map fun t => I.value orb t.coeff t.tensors t.sqOp).sum =
        f (algebraMap ℚ R scale • (I.value orb a.coeff a.tensors a.sqOp * I.value orb b.coeff b.tensors b.sqOp))) ∧
    (∃ out, CommutatorRun m o a b scale out) ∧ ∀ out, CommutatorRun m o a b scale out →
      f (out.map fun t => I.value orb t.coeff t.tensors t.sqOp).sum =
        f (algebraMap ℚ R scale • (I.value orb a.coeff a.tensors a.sqOp * I.value orb b.coeff b.tensors b.sqOp -
          I.value orb b.coeff b.tensors b.sqOp * I.value orb a.coeff a.tensors a.sqOp)) := by
  have hg : ∀ t ∈ [a, b], GoodTerm t := by
    simpa using ⟨(ha.nice hcanon hord hcpu).1, (hb.nice hcanon hord hcpu).1⟩
  have hd' : [a, b].Pairwise DisjointLabels := by simpa using hd
  refine ⟨fun hf => ⟨(C76_contract_terms m hcanon hord hcpu o hn [a, b] (by simp) (by simp [ha, hb]) hd' scale).2, fun out hr => ?_⟩,
    (C76_single_commutator m hcanon hord hcpu o hn a b ha hb hd scale).2, fun out hr => ?_⟩
  · have := C101_contract_terms m hcanon hord o hf [a, b] (ordinary_of_good hg hd') (contractible_of_good hg hd') hd' scale (by simpa using hc) out hr
      orb I hI hph hac hna field hfield hno hcu f hi
    simpa using this
  · refine C101_single_commutator m hcanon hord o a b (ordinary_of_good hg hd') (contractible_of_good hg hd') hd (fun _ => Or.inl ?_) scale hc out hr
      orb I hI hph hac hna field hfield hno hcu f hi
    rw [(hg a (by simp)).bal]
    exact ⟨_, rfl⟩

/-- C103 for the terms of the library. -/
theorem C103_library (m : Machine) (hcanon : CanonContract m.canon) (hord : m.ord.Lawful) (hcpu : 1 ≤ m.cpus) (o : Options) (hn : 1 ≤ o.nProcess)
    (a b : Term) (ha : LibraryTerm m a) (hb : LibraryTerm m b) (hd : DisjointLabels a b) (scale : ℚ)
    (hc : ¬ Negligible (scale * (a.coeff * b.coeff))) (orb : Orbitals O) (I : Interp O R A)
    (hI : I.SlotSymmetric true o.hermitian) (hph : I.Physical orb) (hac : I.ActiveCumulants orb) (hna : I.NoActiveAmplitudes orb)
    (field : Bool × O → A) (hfield : Fermions field) (hno : I.NormalOrdered field) (hcu : I.CumulantsUpTo o.maxCu)
    (hmin : o.minOpen ≤ 0) (hmax : 0 ≤ o.maxOpen) (mean : A →ₗ[R] R) (hmean : IsCumulantOf I.contraction field mean) :
    (o.forCommutator = false → (∃ out, ContractRun m o [a, b] scale out) ∧ ∀ out, ContractRun m o [a, b] scale out →
      ((out.filter fun t => t.sqOp.upper.list = [] ∧ t.sqOp.lower.list = []).map (I.number orb)).sum =
        mean (algebraMap ℚ R scale • (I.value orb a.coeff a.tensors a.sqOp * I.value orb b.coeff b.tensors b.sqOp))) ∧
    (∃ out, CommutatorRun m o a b scale out) ∧ ∀ out, CommutatorRun m o a b scale out →
      ((out.filter fun t => t.sqOp.upper.list = [] ∧ t.sqOp.lower.list = []).map (I.number orb)).sum =
        mean (algebraMap ℚ R scale • (I.value orb a.coeff a.tensors a.sqOp * I.value orb b.coeff b.tensors b.sqOp -
          I.value orb b.coeff b.tensors b.sqOp * I.value orb a.coeff a.tensors a.sqOp)) := by
  obtain ⟨h0, h1⟩ := (C103_cumulants I (hI.1 rfl) (hph.hole _) field hfield hno mean).1 hmean
  simp only [mean_list hno h0 h1]
  exact C101_library m hcanon hord hcpu o hn a b ha hb hd scale hc orb I hI hph hac hna field hfield hno hcu mean (mean_ignores h1 hmin hmax)

end

/-! ### Examples -/

section
variable {O A : Type} [DecidableEq O] [Ring A] [Algebra ℚ A]

/-- Strings with a repeated orbital vanish. -/
theorem op_repeated {I : Interp O ℚ A} (hI : I.Antisymmetric)
    (hole : ∀ a b, I.tensor .hole ['C'] [a] [b] = (if a = b then 1 else 0) - I.tensor .cumulant ['L'] [a] [b])
    {field : Bool × O → A} (hfield : Fermions field) (hno : I.NormalOrdered field) {u l : List O} (h : ¬ (u.Nodup ∧ l.Nodup)) : I.op u l = 0 := by
  have rules := contraction_rules hfield hI hole
  have hw : ¬ (u.map (fun x => (true, x)) ++ l.reverse.map fun x => (false, x)).Nodup := by
    rw [List.nodup_append]
    rintro ⟨h1, h2, -⟩
    exact h ⟨h1.of_map, (List.nodup_reverse.1 h2.of_map)⟩
  rw [hno]
  obtain ⟨x, hx⟩ := List.exists_duplicate_iff_not_nodup.2 hw
  obtain ⟨v, hv⟩ : ∃ v, (u.map (fun x => (true, x)) ++ l.reverse.map fun x => (false, x)).Perm (x :: x :: v) := by
    have hx' := List.duplicate_iff_sublist.1 hx
    obtain ⟨v, hv⟩ := hx'.exists_perm_append
    exact ⟨v, hv⟩
  obtain ⟨s, hs⟩ := normalOrder_perm rules hv []
  rw [List.nil_append, List.nil_append] at hs
  have h0 := normalOrder_swap rules [] v x x
  have h2 : (2 : ℚ) • normalOrder field I.contraction (x :: x :: v) = 0 := by
    rw [two_smul]
    nth_rewrite 1 [show normalOrder field I.contraction (x :: x :: v) = - normalOrder field I.contraction (x :: x :: v) from h0]
    exact neg_add_cancel _
  rw [hs, (smul_eq_zero_iff_right (by norm_num)).1 h2, smul_zero]

end

theorem nodup_two : ∀ u : List (Fin 2), u.Nodup → u ∈ [[], [0], [1], [0, 1], [1, 0]]
  | [], _ => by simp
  | [a], _ => by revert a; decide
  | [a, b], h => by revert a b; decide
  | a :: b :: c :: u, h => by
    have := h.length_le_card
    simp at this

/-- The expectation value in the determinant with an electron in the core orbital. -/
def determinantMean : Matrix (Fin 4) (Fin 4) ℚ →ₗ[ℚ] ℚ := Matrix.entryLinearMap ℚ ℚ 1 1

theorem fockSpace_mean : IsCumulantOf fockSpace.contraction twoFermions determinantMean := by
  obtain ⟨w1, w2, -⟩ := fockSpace_world
  refine (C103_cumulants fockSpace (w1.1 rfl) (w2.hole _) twoFermions twoFermions_fermions fockSpace_normalOrdered determinantMean).2 ⟨by decide +kernel, ?_⟩
  intro u l h
  by_cases hn : u.Nodup ∧ l.Nodup
  · have key : ∀ u ∈ [[], [0], [1], [0, 1], [1, 0]], ∀ l ∈ [[], [0], [1], [0, 1], [1, 0]], u ++ l ≠ [] → determinantMean (fockSpace.op u l) = 0 := by
      decide +kernel
    exact key u (nodup_two u hn.1) l (nodup_two l hn.2) h
  · rw [op_repeated (w1.1 rfl) (w2.hole _) twoFermions_fermions fockSpace_normalOrdered hn, map_zero]

/-- The hypotheses of C101 and C102 can be met: a level with one-body amplitudes in the unitary formalism of which only terms without operators are
kept, after a level that is not truncated. -/
theorem C102_example : ∃ (o : Options) (calls : List (List (Term × Term))) (outs : List (List Term))
    (P : Nat → Matrix (Fin 4) (Fin 4) ℚ →ₗ[ℚ] Matrix (Fin 4) (Fin 4) ℚ),
    BchRun exMachine o [1] true false [(1, 0, 0), (1, 0, 4)] calls outs ∧
    (∀ j maxCu minOpen maxOpen, [((1 : Int), (0 : Int), (0 : Int)), (1, 0, 4)][j]? = some (maxCu, minOpen, maxOpen) →
      fockSpace.CumulantsUpTo maxCu ∧ minOpen ≤ 0 ∧ fockSpace.Truncates (P j) maxOpen minOpen) ∧
    fockSpace.SlotSymmetric true o.hermitian ∧ fockSpace.Physical coreVirtual ∧ fockSpace.ActiveCumulants coreVirtual ∧
    fockSpace.NoActiveAmplitudes coreVirtual ∧ Fermions twoFermions ∧ fockSpace.NormalOrdered twoFermions ∧
    truncatedCommutator P
      (fockSpace.hamiltonianPart (Finset.univ.filter fun o => coreVirtual.spin o = false ∧ coreVirtual.elem o ≠ .active) 1 +
        fockSpace.hamiltonianPart (Finset.univ.filter fun o => coreVirtual.spin o = false ∧ coreVirtual.elem o ≠ .active) 2)
      (fockSpace.generator coreVirtual false true [1]) 1 ≠ 0 ∧
    truncatedCommutator P
      (fockSpace.hamiltonianPart (Finset.univ.filter fun o => coreVirtual.spin o = false ∧ coreVirtual.elem o ≠ .active) 1 +
        fockSpace.hamiltonianPart (Finset.univ.filter fun o => coreVirtual.spin o = false ∧ coreVirtual.elem o ≠ .active) 2)
      (fockSpace.generator coreVirtual false true [1]) 1 ≠
    nestedCommutator
      (fockSpace.hamiltonianPart (Finset.univ.filter fun o => coreVirtual.spin o = false ∧ coreVirtual.elem o ≠ .active) 1 +
        fockSpace.hamiltonianPart (Finset.univ.filter fun o => coreVirtual.spin o = false ∧ coreVirtual.elem o ≠ .active) 2)
      (fockSpace.generator coreVirtual false true [1]) 1 := by
  obtain ⟨c, l, p⟩ := exMachine_ok
  let o : Options := { maxCu := 1, maxOpen := 8, minOpen := 0, forCommutator := true, expandHole := true, nProcess := 2, hermitian := true }
  obtain ⟨calls, outs, h⟩ := (C76_bch_cc_rsc _ c l p o (by decide) [1] (by simp) (by simp) true false [(1, 0, 0), (1, 0, 4)]).2
  obtain ⟨w1, w2, w3, w4, w5⟩ := fockSpace_world
  obtain ⟨m0, m1⟩ := (C103_cumulants fockSpace (w1.1 rfl) (w2.hole _) twoFermions twoFermions_fermions fockSpace_normalOrdered determinantMean).1 fockSpace_mean
  refine ⟨o, calls, outs, fun j => if j = 1 then LinearMap.id else determinantMean.smulRight 1, h, ?_, w1, w2, w3, w4, twoFermions_fermions,
    fockSpace_normalOrdered, by decide +kernel, by decide +kernel⟩
  intro j maxCu minOpen maxOpen hj
  match j, hj with
  | 1, hj =>
    obtain ⟨rfl, rfl, rfl⟩ : 1 = maxCu ∧ 0 = minOpen ∧ 4 = maxOpen := by simpa using hj
    refine ⟨w5, Int.le_refl _, ?_, fun u l _ _ => rfl⟩
    intro u l hul
    rw [op_repeated (w1.1 rfl) (w2.hole _) twoFermions_fermions fockSpace_normalOrdered, map_zero]
    rintro ⟨h1, h2⟩
    have := h1.length_le_card
    have := h2.length_le_card
    simp at *
    omega
  | 0, hj =>
    obtain ⟨rfl, rfl, rfl⟩ : 1 = maxCu ∧ 0 = minOpen ∧ 0 = maxOpen := by simpa using hj
    refine ⟨w5, Int.le_refl _, ?_, ?_⟩
    · intro u l hul
      have : u ++ l ≠ [] := by
        intro e
        obtain ⟨rfl, rfl⟩ := List.append_eq_nil_iff.1 e
        simp at hul
      simp [m1 u l this]
    · intro u l _ hul
      obtain ⟨rfl, rfl⟩ : u = [] ∧ l = [] := by
        constructor <;> apply List.length_eq_zero_iff.1 <;> omega
      decide +kernel
  | j + 2, hj => simp at hj

/-- A correlated reference: no electron or two electrons, with the same probability.  The density is one half for both orbitals, the two-body
cumulant is a quarter, and the Hamiltonian has one and two bodies. -/
def correlated : Interp (Fin 2) ℚ ℚ where
  tensor cls _ u l := match cls, u, l with
    | .kronecker, [a], [b] => if a = b then 1 else 0
    | .cumulant, [a], [b] => if a = b then 1 / 2 else 0
    | .hole, [a], [b] => if a = b then 1 / 2 else 0
    | .hamiltonian, [_], [_] => 1
    | .cumulant, [a, b], [c, d] => pairSign [a, b] * pairSign [c, d] / 4
    | .hamiltonian, [a, b], [c, d] => pairSign [a, b] * pairSign [c, d]
    | _, _, _ => 0
  op _ _ := 0

/-- The operators that are normal ordered with respect to the correlated reference. -/
def correlatedSpace : Interp (Fin 2) ℚ (Matrix (Fin 4) (Fin 4) ℚ) where
  tensor := correlated.tensor
  op u l := normalOrder twoFermions correlated.contraction (u.map (fun x => (true, x)) ++ l.reverse.map fun x => (false, x))

/-- The expectation value in the correlated reference. -/
def correlatedMean : Matrix (Fin 4) (Fin 4) ℚ →ₗ[ℚ] ℚ :=
  (1 / 2 : ℚ) • Matrix.entryLinearMap ℚ ℚ 0 0 + (1 / 2 : ℚ) • Matrix.entryLinearMap ℚ ℚ 3 3

theorem correlated_tensor (cls : TCls) (name : PyStr) (u l : List (Fin 2))
    (h : ¬ ((u.length = 1 ∧ l.length = 1) ∨ (u.length = 2 ∧ l.length = 2))) : correlated.tensor cls name u l = 0 := by
  match u, l with
  | [], _ => cases cls <;> rfl
  | [_], [] => cases cls <;> rfl
  | [_], [_] => simp at h
  | [_], _ :: _ :: _ => cases cls <;> rfl
  | [_, _], [] => cases cls <;> rfl
  | [_, _], [_] => cases cls <;> rfl
  | [_, _], [_, _] => simp at h
  | [_, _], _ :: _ :: _ :: _ => cases cls <;> rfl
  | _ :: _ :: _ :: _, _ => cases cls <;> rfl

theorem correlatedSpace_world : correlatedSpace.SlotSymmetric true true ∧ correlatedSpace.Physical twoActive ∧
    correlatedSpace.ActiveCumulants twoActive ∧ correlatedSpace.NoActiveAmplitudes twoActive ∧ correlatedSpace.CumulantsUpTo 2 ∧
    correlatedSpace.NormalOrdered twoFermions := by
  have e : ∀ cls name u l, correlatedSpace.tensor cls name u l = correlated.tensor cls name u l := fun _ _ _ _ => rfl
  have hno : correlatedSpace.NormalOrdered twoFermions := fun _ _ => rfl
  refine ⟨⟨fun _ => ?_, by simp, fun _ => ?_⟩, ?_, ?_, ?_, ?_, hno⟩
  · refine antisymmetric_of_normalOrdered twoFermions_fermions hno ?_ ?_ ?_
    · simp only [correlatedSpace, correlated]; decide +kernel
    · intro cls name pre a b post l
      rw [e, e]
      match pre, post, l with
      | [], [], [c, d] =>
        have := pairSign_swap [] [] a b
        cases cls <;> simp [correlated] at this ⊢ <;> rw [this] <;> ring
      | _ :: _, _, _ => rw [correlated_tensor, correlated_tensor, neg_zero] <;> simp <;> omega
      | [], _ :: _, _ => rw [correlated_tensor, correlated_tensor, neg_zero] <;> simp
      | [], [], [] => rw [correlated_tensor, correlated_tensor, neg_zero] <;> simp
      | [], [], [_] => rw [correlated_tensor, correlated_tensor, neg_zero] <;> simp
      | [], [], _ :: _ :: _ :: _ => rw [correlated_tensor, correlated_tensor, neg_zero] <;> simp
    · intro cls name l pre a b post
      rw [e, e]
      match pre, post, l with
      | [], [], [c, d] =>
        have := pairSign_swap [] [] a b
        cases cls <;> simp [correlated] at this ⊢ <;> rw [this] <;> ring
      | _ :: _, _, _ => rw [correlated_tensor, correlated_tensor, neg_zero] <;> simp <;> omega
      | [], _ :: _, _ => rw [correlated_tensor, correlated_tensor, neg_zero] <;> simp
      | [], [], [] => rw [correlated_tensor, correlated_tensor, neg_zero] <;> simp
      | [], [], [_] => rw [correlated_tensor, correlated_tensor, neg_zero] <;> simp
      | [], [], _ :: _ :: _ :: _ => rw [correlated_tensor, correlated_tensor, neg_zero] <;> simp
  · intro cls name u l
    rw [e, e]
    by_cases h : (u.length = 1 ∧ l.length = 1) ∨ (u.length = 2 ∧ l.length = 2)
    · rcases h with ⟨hu, hl⟩ | ⟨hu, hl⟩
      · obtain ⟨a, rfl⟩ := List.length_eq_one_iff.1 hu
        obtain ⟨b, rfl⟩ := List.length_eq_one_iff.1 hl
        cases cls <;> simp only [correlated] <;> revert a b <;> decide +kernel
      · obtain ⟨a, b, rfl⟩ := List.length_eq_two.1 hu
        obtain ⟨c, d, rfl⟩ := List.length_eq_two.1 hl
        cases cls <;> simp only [correlated] <;> ring
    · rw [correlated_tensor _ _ _ _ h, correlated_tensor _ _ _ _ (by tauto)]
  · refine ⟨fun _ => ?_, fun _ => ?_, fun _ => ?_, fun _ => ?_, fun _ => ?_⟩ <;> simp only [correlatedSpace, correlated] <;> decide +kernel
  · intro name u l _ ⟨o, _, ho⟩
    exact absurd rfl ho
  · intro name u l _
    rw [e]
    by_cases h : (u.length = 1 ∧ l.length = 1) ∨ (u.length = 2 ∧ l.length = 2)
    · rcases h with ⟨hu, hl⟩ | ⟨hu, hl⟩
      · obtain ⟨a, rfl⟩ := List.length_eq_one_iff.1 hu
        obtain ⟨b, rfl⟩ := List.length_eq_one_iff.1 hl
        rfl
      · obtain ⟨a, b, rfl⟩ := List.length_eq_two.1 hu
        obtain ⟨c, d, rfl⟩ := List.length_eq_two.1 hl
        rfl
    · exact correlated_tensor _ _ _ _ h
  · intro _ name u l h
    rw [e]
    exact correlated_tensor _ _ _ _ (by omega)

theorem correlatedSpace_mean : IsCumulantOf correlatedSpace.contraction twoFermions correlatedMean := by
  obtain ⟨w1, w2, -, -, -, w6⟩ := correlatedSpace_world
  refine (C103_cumulants correlatedSpace (w1.1 rfl) (w2.hole _) twoFermions twoFermions_fermions w6 correlatedMean).2 ⟨by decide +kernel, ?_⟩
  intro u l h
  by_cases hn : u.Nodup ∧ l.Nodup
  · have key : ∀ u ∈ [[], [0], [1], [0, 1], [1, 0]], ∀ l ∈ [[], [0], [1], [0, 1], [1, 0]], u ++ l ≠ [] → correlatedMean (correlatedSpace.op u l) = 0 := by
      decide +kernel
    exact key u (nodup_two u hn.1) l (nodup_two l hn.2) h
  · rw [op_repeated (w1.1 rfl) (w2.hole _) twoFermions_fermions w6 hn, map_zero]

/-- The hypotheses of C103 can be met with a correlated reference: the square of the one-body Hamiltonian, of which only the terms without operators
are asked for. -/
theorem C103_example : ∃ (a b : Term) (o : Options), LibraryTerm exMachine a ∧ LibraryTerm exMachine b ∧ DisjointLabels a b ∧
    ¬ Negligible (1 * (a.coeff * b.coeff)) ∧ 1 ≤ o.nProcess ∧ o.forCommutator = false ∧ o.minOpen = 0 ∧ o.maxOpen = 0 ∧
    correlatedSpace.SlotSymmetric true o.hermitian ∧ correlatedSpace.Physical twoActive ∧ correlatedSpace.ActiveCumulants twoActive ∧
    correlatedSpace.NoActiveAmplitudes twoActive ∧ Fermions twoFermions ∧ correlatedSpace.NormalOrdered twoFermions ∧
    correlatedSpace.CumulantsUpTo o.maxCu ∧ IsCumulantOf correlatedSpace.contraction twoFermions correlatedMean ∧
    correlatedMean ((1 : ℚ) • (correlatedSpace.value twoActive a.coeff a.tensors a.sqOp * correlatedSpace.value twoActive b.coeff b.tensors b.sqOp)) ≠ 0 ∧
    correlatedSpace.tensor .cumulant ['L'] [0, 1] [0, 1] ≠ 0 := by
  obtain ⟨h, _, hh, -⟩ := C38_hamiltonian 1 0 .spinOrbital
  obtain ⟨h', _, hh', -⟩ := C38_hamiltonian 1 2 .spinOrbital
  have a := LibraryTerm.hamiltonian (m := exMachine) 1 0 h (by decide) hh
  have b := LibraryTerm.hamiltonian (m := exMachine) 1 2 h' (by decide) hh'
  have gh := hamiltonian_good_from hh
  have gh' := hamiltonian_good_from hh'
  let o : Options := { maxCu := 2, maxOpen := 0, minOpen := 0, forCommutator := false, expandHole := true, nProcess := 2, hermitian := true }
  obtain ⟨w1, w2, w3, w4, w5, w6⟩ := correlatedSpace_world
  refine ⟨h, h', o, a, b, disjointLabels_of_numbers (N := 2) (fun i hi => by have := gh.2.2.2.2.2 i hi; omega)
    (fun i hi => by have := gh'.2.2.2.2.2 i hi; omega), ?_, by decide, rfl, rfl, rfl, w1, w2, w3, w4, twoFermions_fermions, w6, w5, correlatedSpace_mean,
    ?_, by decide +kernel⟩
  · rw [gh.2.2.1, gh'.2.2.1]
    unfold Negligible
    norm_num [Nat.factorial]
  · rw [hamiltonian_operator hh, hamiltonian_operator hh']
    decide +kernel

end Dsrg
