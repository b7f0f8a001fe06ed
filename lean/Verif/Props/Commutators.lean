import Verif.Props.Transformation

/-!
Property C81: `linear_commutator`, `linear_commutator_amp` and `recursive_single_commutator` return operator commutators.
-/

namespace Dsrg

section
variable {O R A : Type} [Fintype O] [DecidableEq O] [Inhabited O] [CommRing R] [Algebra ℚ R] [Ring A] [Algebra R A]

theorem linear_value {m : Machine} (hcanon : CanonContract m.canon) (hord : m.ord.Lawful) {o : Options} {lefts rights : List Term} {scale : ℚ}
    (hg : ∀ l ∈ lefts, ∀ r ∈ rights, GoodTerm l ∧ GoodTerm r ∧ DisjointLabels l r) {c : ℚ} (hc : 1 / 10 ^ 15 ≤ |c|)
    (hcoeff : ∀ l ∈ lefts, ∀ r ∈ rights, ∃ n : ℤ, scale * (l.coeff * r.coeff) = n * c) {out : List Term} {all : List Term}
    (h1 : CommutatorsRun m o scale (lefts.flatMap fun l => rights.map fun r => (l, r)) all) (h2 : combineTerms all = .ok out)
    {orb : Orbitals O} {I : Interp O R A} (hI : I.SlotSymmetric true o.hermitian) (hph : I.Physical orb)
    (hac : I.ActiveCumulants orb) (hna : I.NoActiveAmplitudes orb) {field : Bool × O → A} (hfield : Fermions field) (hno : I.NormalOrdered field)
    (hcu : I.CumulantsUpTo o.maxCu) (hmin : o.minOpen ≤ 0)
    (hmax : ∀ l ∈ lefts, ∀ r ∈ rights, ((l.nOpen + r.nOpen : Nat) : Int) ≤ o.maxOpen + 2) :
    (∀ r ∈ out, Multiple c r.coeff) ∧ I.listValue orb out =
      algebraMap ℚ R scale • (I.listValue orb lefts * I.listValue orb rights - I.listValue orb rights * I.listValue orb lefts) := by
  have hp : ∀ p ∈ lefts.flatMap fun l => rights.map fun r => (l, r), p.1 ∈ lefts ∧ p.2 ∈ rights := by
    intro p hp
    obtain ⟨l, hl, hp⟩ := List.mem_flatMap.1 hp
    obtain ⟨r, hr, rfl⟩ := List.mem_map.1 hp
    exact ⟨hl, hr⟩
  obtain ⟨m1, F, m2, m3⟩ := commutators_listValue hcanon hord hc hI hph hac hna (fun p hpm => by
    obtain ⟨a, b⟩ := hp p hpm
    obtain ⟨g1, g2, g3⟩ := hg _ a _ b
    exact ⟨g1, g2, g3, hcoeff _ a _ b⟩) h1
  have hgood : ∀ t ∈ all, GoodTerm t := by
    let f : Term → Nat := fun t => (labelsOf t.tensors t.sqOp).card
    have := CommutatorsRun.good hcanon hord (N := ((lefts.flatMap fun l => rights.map fun r => (l, r)).map fun p => f p.1 + f p.2).sum) (fun p hpm => by
      obtain ⟨a, b⟩ := hp p hpm
      obtain ⟨g1, g2, g3⟩ := hg _ a _ b
      exact ⟨g1, g2, g3, List.le_sum_of_mem (List.mem_map.2 ⟨p, hpm, rfl⟩)⟩) h1
    exact fun t ht => (this t ht).1
  refine ⟨combine_multiple hgood m1 h2, ?_⟩
  rw [combine_listValue hgood m1 h2, m3]
  by_cases hlen : lefts = [] ∨ rights = []
  · have : (lefts.flatMap fun l => rights.map fun r => (l, r)) = [] := by
      rcases hlen with rfl | rfl <;> simp
    rw [this] at m2
    cases m2
    rcases hlen with rfl | rfl <;> simp [Interp.listValue]
  · push Not at hlen
    obtain ⟨l₀, hl₀⟩ := List.exists_mem_of_ne_nil _ hlen.1
    obtain ⟨r₀, hr₀⟩ := List.exists_mem_of_ne_nil _ hlen.2
    have h0 : 0 ≤ o.maxOpen + 2 := le_trans (by positivity) (hmax _ hl₀ _ hr₀)
    refine commutator_values_sum (N := (o.maxOpen + 2).toNat) (fun l hl r hr => ?_) hfield hno (hI.1 rfl) hph hac hcu hmin (by omega) m2
    obtain ⟨g1, g2, g3⟩ := hg l hl r hr
    have := hmax l hl r hr
    exact ⟨g1, g2, g3, by omega⟩

/-- C81 (`linear_commutator`): the values of the returned terms add up to `scale_factor [L, R]`, where `L` and `R` are the sums of the values of
the left and of the right terms, taken as operators.  The limits must cut off nothing but uncontracted products, each left term must have no
label in common with a right term, and the coefficients must not fall under the threshold of `combine_terms`. -/
theorem C81_linear_commutator (m : Machine) (hcanon : CanonContract m.canon) (hord : m.ord.Lawful) (hcpu : 1 ≤ m.cpus) (o : Options)
    (lefts rights : List Term) (hl : ∀ l ∈ lefts, LibraryTerm m l) (hr : ∀ r ∈ rights, LibraryTerm m r)
    (hd : ∀ l ∈ lefts, ∀ r ∈ rights, DisjointLabels l r) (scale c : ℚ) (hc : 1 / 10 ^ 15 ≤ |c|)
    (hcoeff : ∀ l ∈ lefts, ∀ r ∈ rights, ∃ n : ℤ, scale * (l.coeff * r.coeff) = n * c) (out : List Term)
    (h : LinearCommutatorRun m o lefts rights scale out)
    (orb : Orbitals O) (I : Interp O R A) (hI : I.SlotSymmetric true o.hermitian) (hph : I.Physical orb) (hac : I.ActiveCumulants orb)
    (hna : I.NoActiveAmplitudes orb) (field : Bool × O → A) (hfield : Fermions field) (hno : I.NormalOrdered field)
    (hcu : I.CumulantsUpTo o.maxCu) (hmin : o.minOpen ≤ 0)
    (hmax : ∀ l ∈ lefts, ∀ r ∈ rights, (nOperators [l.sqOp, r.sqOp] : Int) ≤ o.maxOpen + 2) :
    (out.map fun t => I.value orb t.coeff t.tensors t.sqOp).sum = algebraMap ℚ R scale •
      ((lefts.map fun t => I.value orb t.coeff t.tensors t.sqOp).sum * (rights.map fun t => I.value orb t.coeff t.tensors t.sqOp).sum -
        (rights.map fun t => I.value orb t.coeff t.tensors t.sqOp).sum * (lefts.map fun t => I.value orb t.coeff t.tensors t.sqOp).sum) := by
  obtain ⟨all, h1, h2⟩ := h
  refine (linear_value hcanon hord (o := { o with expandHole := true }) (fun l hlm r hrm => ⟨((hl l hlm).nice hcanon hord hcpu).1,
    ((hr r hrm).nice hcanon hord hcpu).1, hd l hlm r hrm⟩) hc hcoeff h1 h2 hI hph hac hna hfield hno hcu hmin ?_).2
  intro l hl r hr
  have e : nOperators [l.sqOp, r.sqOp] = l.nOpen + r.nOpen := by simp [nOperators, Term.nOpen, Indices.size]
  rw [← e]
  exact hmax l hl r hr

/-- C81 (`linear_commutator_amp`): the values of the returned terms add up to `scale_factor [L, A]` with the generator `A = ∑ T_k`, or
`∑ T_k - T_k†` in the unitary formalism. -/
theorem C81_linear_commutator_amp (m : Machine) (hcanon : CanonContract m.canon) (hord : m.ord.Lawful) (hcpu : 1 ≤ m.cpus) (o : Options)
    (lefts : List Term) (hl : ∀ l ∈ lefts, LibraryTerm m l) (levels : List Nat) (start : Nat)
    (hstart : ∀ l ∈ lefts, ∀ i ∈ labelsOf l.tensors l.sqOp, i.number < start) (unitary singleRef : Bool) (scale c : ℚ)
    (hc : 1 / 10 ^ 15 ≤ |c|) (hcoeff : ∀ l ∈ lefts, ∀ k ∈ levels, ∃ n : ℤ, scale * (l.coeff * (1 / (k.factorial : ℚ) ^ 2)) = n * c) (out : List Term)
    (h : LinearCommutatorAmpRun m o lefts levels start unitary singleRef scale out)
    (orb : Orbitals O) (I : Interp O R A) (hI : I.SlotSymmetric true o.hermitian) (hph : I.Physical orb) (hac : I.ActiveCumulants orb)
    (hna : I.NoActiveAmplitudes orb) (field : Bool × O → A) (hfield : Fermions field) (hno : I.NormalOrdered field)
    (hcu : I.CumulantsUpTo o.maxCu) (hmin : o.minOpen ≤ 0)
    (hmax : ∀ l ∈ lefts, ∀ k ∈ levels, ((nOperators [l.sqOp] + 2 * k : Nat) : Int) ≤ o.maxOpen + 2) :
    (out.map fun t => I.value orb t.coeff t.tensors t.sqOp).sum = algebraMap ℚ R scale •
      ((lefts.map fun t => I.value orb t.coeff t.tensors t.sqOp).sum * I.generator orb singleRef unitary levels -
        I.generator orb singleRef unitary levels * (lefts.map fun t => I.value orb t.coeff t.tensors t.sqOp).sum) := by
  obtain ⟨amps, h0, all, h1, h2⟩ := h
  have hamps := clusterOperators_good h0
  have := (linear_value hcanon hord (o := { o with expandHole := true }) (fun l hlm r hrm => by
    obtain ⟨k, -, g1, -, -, -, -, g2⟩ := hamps r hrm
    exact ⟨((hl l hlm).nice hcanon hord hcpu).1, g1, disjointLabels_of_numbers (hstart l hlm) fun i hi => (g2 i hi).2⟩) hc (fun l hlm r hrm => by
    obtain ⟨k, hk, -, -, g3, -⟩ := hamps r hrm
    obtain ⟨n, hn⟩ := hcoeff l hlm k hk
    rcases g3 with g3 | g3
    · exact ⟨n, by rw [g3, hn]⟩
    · exact ⟨-n, by rw [g3]; push_cast; rw [neg_mul, ← hn]; ring⟩) h1 h2 hI hph hac hna hfield hno hcu hmin (fun l hlm r hrm => by
    obtain ⟨k, hk, -, -, -, g4, g5, -⟩ := hamps r hrm
    have := hmax l hlm k hk
    have e : nOperators [l.sqOp] = l.nOpen := by simp [nOperators, Term.nOpen, Indices.size]
    have e' : r.nOpen = 2 * k := by unfold Term.nOpen; omega
    rw [e', ← e]
    exact this)).2
  rw [clusterOperators_value h0] at this
  exact this

theorem recursive_value {m : Machine} (hcanon : CanonContract m.canon) (hord : m.ord.Lawful) {o : Options}
    {orb : Orbitals O} {I : Interp O R A} (hI : I.SlotSymmetric true o.hermitian) (hph : I.Physical orb)
    (hac : I.ActiveCumulants orb) (hna : I.NoActiveAmplitudes orb) {field : Bool × O → A} (hfield : Fermions field) (hno : I.NormalOrdered field) :
    ∀ {levels : List (Term × Int × Int × Int)} {pool : List Term} {N n : Nat} {c : ℚ} {outs : List (List Term)}, GoodList N pool →
      (∀ t ∈ pool, t.nOpen ≤ n ∧ ∃ k : ℤ, t.coeff = k * c) → (∀ l ∈ levels, GoodTerm l.1) →
      (∀ pre l post, levels = pre ++ l :: post → ∀ i ∈ labelsOf l.1.tensors l.1.sqOp,
        N + (pre.map fun l => (labelsOf l.1.tensors l.1.sqOp).card).sum ≤ i.number) →
      (∀ pre l post, levels = pre ++ l :: post → 1 / 10 ^ 15 ≤ |c * ((pre.map fun l => l.1.coeff).prod * l.1.coeff)|) →
      WideLevels I n levels → RecursiveRun m o pool levels outs → outs.length = levels.length ∧
      ∀ i out, outs[i]? = some out → I.listValue orb out =
        leftCommutator (I.listValue orb pool) ((levels.take (i + 1)).map fun l => I.value orb l.1.coeff l.1.tensors l.1.sqOp) := by
  intro levels
  induction levels with
  | nil =>
    intro pool N n c outs _ _ _ _ _ _ h
    rw [show outs = [] from h]
    exact ⟨rfl, by simp⟩
  | cons l levels ih =>
    intro pool N n c outs hp hn hl hnum hsize hw h
    obtain ⟨right, maxCu, minOpen, maxOpen⟩ := l
    obtain ⟨all, out, outs', h1, h2, h3, rfl⟩ := h
    obtain ⟨w1, w2, w3, w4⟩ := hw
    have hr : GoodTerm right := hl (right, maxCu, minOpen, maxOpen) (by simp)
    have hrn : ∀ i ∈ labelsOf right.tensors right.sqOp, N ≤ i.number := fun i hi => by simpa using hnum [] _ levels rfl i hi
    have hd : ∀ l ∈ pool, DisjointLabels l right := fun l hl => disjointLabels_of_numbers (hp l hl).2.number hrn
    have hpair : ∀ p ∈ pool.map fun l => (l, right), GoodTerm p.1 ∧ GoodTerm p.2 ∧ DisjointLabels p.1 p.2 ∧
        (labelsOf p.1.tensors p.1.sqOp).card + (labelsOf p.2.tensors p.2.sqOp).card ≤ N + (labelsOf right.tensors right.sqOp).card := by
      intro p hpm
      obtain ⟨l, hl, rfl⟩ := List.mem_map.1 hpm
      exact ⟨(hp l hl).1, hr, hd l hl, Nat.add_le_add_right (hp l hl).2.card _⟩
    have hgood := CommutatorsRun.good hcanon hord hpair h1
    have hnop := CommutatorsRun.nOpen hcanon hord (N := n + right.nOpen) (fun p hpm => by
      obtain ⟨g1, g2, g3, -⟩ := hpair p hpm
      obtain ⟨l, hl, rfl⟩ := List.mem_map.1 hpm
      exact ⟨g1, g2, g3, Nat.add_le_add_right (hn l hl).1 _⟩) h1
    have e : (pool.map fun l => (l, right)) = pool.flatMap fun l => [right].map fun r => (l, r) := by
      simp [List.map_eq_flatMap]
    have hc : 1 / 10 ^ 15 ≤ |c * right.coeff| := by simpa using hsize [] _ levels rfl
    obtain ⟨v1, v2⟩ := linear_value hcanon hord (o := { o with maxCu := maxCu, maxOpen := maxOpen, minOpen := minOpen }) (lefts := pool)
      (rights := [right]) (scale := 1) (fun l hlm r hr' => by
        obtain rfl : r = right := by simpa using hr'
        exact ⟨(hp l hlm).1, hr, hd l hlm⟩) hc (fun l hlm r hr' => by
        obtain rfl : r = right := by simpa using hr'
        obtain ⟨k, hk⟩ := (hn l hlm).2
        exact ⟨k, by rw [hk]; ring⟩) (e ▸ h1) h2 hI hph hac hna hfield hno w1 w2 (fun l hlm r hr' => by
        obtain rfl : r = right := by simpa using hr'
        have h1 := (hn l hlm).1
        have h2 : ((n + r.nOpen : Nat) : Int) ≤ maxOpen + 2 := w3
        show _ ≤ maxOpen + 2
        omega)
    have ihs := ih (hgood.combine h2) (n := (min maxOpen (n + right.nOpen : Nat)).toNat) (c := c * right.coeff) (fun t ht => by
        have h3 := nOpen_combine (fun t ht => (hgood t ht).1) h2 (P := fun x => (x : Int) ≤ maxOpen ∧ x ≤ n + right.nOpen) hnop t ht
        obtain ⟨k, hk, -⟩ := v1 t ht
        exact ⟨by omega, k, hk⟩) (fun l hl' => hl l (by simp [hl'])) (fun pre l post e i hi => by
        have := hnum ((right, maxCu, minOpen, maxOpen) :: pre) l post (by rw [e]; rfl) i hi
        simp only [List.map_cons, List.sum_cons] at this
        omega) (fun pre l post e => by
        have := hsize ((right, maxCu, minOpen, maxOpen) :: pre) l post (by rw [e]; rfl)
        simp only [List.map_cons, List.prod_cons] at this
        rw [show c * right.coeff * ((pre.map fun l => l.1.coeff).prod * l.1.coeff) = c * (right.coeff * (pre.map fun l => l.1.coeff).prod * l.1.coeff) by ring]
        exact this) w4 h3
    have hval : I.listValue orb out = I.listValue orb pool * I.value orb right.coeff right.tensors right.sqOp -
        I.value orb right.coeff right.tensors right.sqOp * I.listValue orb pool := by
      rw [v2]
      simp [Interp.listValue]
    refine ⟨by simp [ihs.1], ?_⟩
    intro i out' hi
    cases i with
    | zero =>
      obtain rfl : out = out' := by simpa using hi
      simpa [leftCommutator] using hval
    | succ i =>
      rw [ihs.2 i out' (by simpa using hi), hval]
      simp [leftCommutator]

/-- C81 (`recursive_single_commutator`): the values of the terms returned for level `i` add up to `[…[[t₀, t₁], t₂]…, tᵢ]`, where the terms are taken
as operators.  The limits must cut off nothing but uncontracted products; the numbers of the labels of each term exceed the numbers of the labels of
`t₀` and the number of labels of all terms before it; and the products of the coefficients must not fall under the threshold of `combine_terms`. -/
theorem C81_recursive_single_commutator (m : Machine) (hcanon : CanonContract m.canon) (hord : m.ord.Lawful) (hcpu : 1 ≤ m.cpus) (o : Options)
    (first : Term) (levels : List (Term × Int × Int × Int)) (hf : LibraryTerm m first) (hl : ∀ l ∈ levels, LibraryTerm m l.1)
    (N : Nat) (hN : (labelsOf first.tensors first.sqOp).card ≤ N ∧ ∀ i ∈ labelsOf first.tensors first.sqOp, i.number < N)
    (hnum : ∀ pre l post, levels = pre ++ l :: post → ∀ i ∈ labelsOf l.1.tensors l.1.sqOp,
      N + (pre.map fun l => (labelsOf l.1.tensors l.1.sqOp).card).sum ≤ i.number)
    (hsize : ∀ pre l post, levels = pre ++ l :: post → 1 / 10 ^ 15 ≤ |first.coeff * ((pre.map fun l => l.1.coeff).prod * l.1.coeff)|)
    (outs : List (List Term)) (h : RecursiveRun m o [first] levels outs)
    (orb : Orbitals O) (I : Interp O R A) (hI : I.SlotSymmetric true o.hermitian) (hph : I.Physical orb) (hac : I.ActiveCumulants orb)
    (hna : I.NoActiveAmplitudes orb) (field : Bool × O → A) (hfield : Fermions field) (hno : I.NormalOrdered field)
    (hw : WideLevels I (nOperators [first.sqOp]) levels) (i : Nat) (hi : i < levels.length) :
    ∃ out, outs[i]? = some out ∧ (out.map fun t => I.value orb t.coeff t.tensors t.sqOp).sum =
      leftCommutator (I.value orb first.coeff first.tensors first.sqOp)
        ((levels.take (i + 1)).map fun l => I.value orb l.1.coeff l.1.tensors l.1.sqOp) := by
  have hfg := (hf.nice hcanon hord hcpu).1
  have e : nOperators [first.sqOp] = first.nOpen := by simp [nOperators, Term.nOpen, Indices.size]
  obtain ⟨k1, k2⟩ := recursive_value hcanon hord hI hph hac hna hfield hno (pool := [first]) (N := N) (c := first.coeff) (by
      intro t ht
      obtain rfl : t = first := by simpa using ht
      exact ⟨hfg, hN.1, hN.2⟩) (by
      intro t ht
      obtain rfl : t = first := by simpa using ht
      exact ⟨e.ge, 1, by simp⟩) (fun l hl' => ((hl l hl').nice hcanon hord hcpu).1) hnum hsize hw h
  refine ⟨outs[i]'(by omega), List.getElem?_eq_getElem (by omega), ?_⟩
  have := k2 i _ (List.getElem?_eq_getElem (by omega))
  simpa [Interp.listValue] using this

end

/-- The hypotheses of C81 can be met: commutators of the one-body Hamiltonian with an excitation and a deexcitation, and two orbitals. -/
theorem C81_example : ∃ (h t x : Term) (o : Options) (outs : List (List Term)) (out out' : List Term), LibraryTerm exMachine h ∧ LibraryTerm exMachine t ∧
    LibraryTerm exMachine x ∧
    RecursiveRun exMachine o [h] [(t, 1, 0, 2), (x, 1, 0, 4)] outs ∧ LinearCommutatorRun exMachine o [h] [t] 1 out ∧
    LinearCommutatorAmpRun exMachine o [h] [1] 2 true false 1 out' ∧
    (labelsOf h.tensors h.sqOp).card ≤ 2 ∧ (∀ i ∈ labelsOf h.tensors h.sqOp, i.number < 2) ∧
    (∀ pre l post, [(t, (1 : Int), (0 : Int), (2 : Int)), (x, 1, 0, 4)] = pre ++ l :: post → ∀ i ∈ labelsOf l.1.tensors l.1.sqOp,
      2 + (pre.map fun l => (labelsOf l.1.tensors l.1.sqOp).card).sum ≤ i.number) ∧
    h.coeff = 1 ∧ t.coeff = 1 ∧ x.coeff = -1 ∧ DisjointLabels h t ∧ nOperators [h.sqOp, t.sqOp] = 4 ∧ o.maxOpen = 8 ∧ o.minOpen = 0 ∧
    fockSpace.CumulantsUpTo o.maxCu ∧ WideLevels fockSpace (nOperators [h.sqOp]) [(t, 1, 0, 2), (x, 1, 0, 4)] ∧
    fockSpace.SlotSymmetric true o.hermitian ∧ fockSpace.Physical coreVirtual ∧ fockSpace.ActiveCumulants coreVirtual ∧
    fockSpace.NoActiveAmplitudes coreVirtual ∧ Fermions twoFermions ∧ fockSpace.NormalOrdered twoFermions ∧
    leftCommutator (fockSpace.value coreVirtual h.coeff h.tensors h.sqOp)
      [fockSpace.value coreVirtual t.coeff t.tensors t.sqOp, fockSpace.value coreVirtual x.coeff x.tensors x.sqOp] ≠ 0 := by
  obtain ⟨c, l, p⟩ := exMachine_ok
  obtain ⟨h, _, hh, -⟩ := C38_hamiltonian 1 0 .spinOrbital
  obtain ⟨t, ht⟩ := cluster_total 1 2 true 1 false
  obtain ⟨x, hx⟩ := cluster_total 1 4 false (-1) false
  have a := LibraryTerm.hamiltonian (m := exMachine) 1 0 h (by decide) hh
  have a₁ := LibraryTerm.amplitude (m := exMachine) 1 2 true 1 false t (by decide) ht
  have a₂ := LibraryTerm.amplitude (m := exMachine) 1 4 false (-1) false x (by decide) hx
  have gh := hamiltonian_good_from hh
  have g₁ := cluster_good ht
  have g₂ := cluster_good hx
  let o : Options := { maxCu := 1, maxOpen := 8, minOpen := 0, forCommutator := true, expandHole := true, nProcess := 2, hermitian := true }
  have hn : ∀ i ∈ labelsOf h.tensors h.sqOp, i.number < 2 := fun i hi => by have := gh.2.2.2.2.2 i hi; omega
  have hd : DisjointLabels h t := disjointLabels_of_numbers (N := 2) hn (fun i hi => by have := g₁.2.2.2.2.2 i hi; omega)
  have hnum : ∀ pre l post, [(t, (1 : Int), (0 : Int), (2 : Int)), (x, 1, 0, 4)] = pre ++ l :: post → ∀ i ∈ labelsOf l.1.tensors l.1.sqOp,
      2 + (pre.map fun l => (labelsOf l.1.tensors l.1.sqOp).card).sum ≤ i.number := by
    intro pre l post e i hi
    match pre, e with
    | [], e =>
      obtain ⟨rfl, -⟩ := List.cons.inj e
      have := g₁.2.2.2.2.2 i hi
      simpa using this.2.1
    | [_], e =>
      obtain ⟨e', e⟩ := List.cons.inj e
      rw [← e']
      obtain ⟨rfl, -⟩ := List.cons.inj e
      have h3 := g₂.2.2.2.2.2 i hi
      simp only [List.map_cons, List.map_nil, List.sum_cons, List.sum_nil, g₁.2.1]
      omega
    | [_, _], e => simp at e
    | _ :: _ :: _ :: _, e => simp at e
  obtain ⟨outs, ho⟩ := (C76_recursive_single_commutator _ c l p o (by decide) h [(t, 1, 0, 2), (x, 1, 0, 4)] a (by simp [a₁, a₂]) 2 ⟨gh.2.1.le, hn⟩ hnum).2
  obtain ⟨out, ho'⟩ := (C76_linear_commutator _ c l p o (by decide) [h] [t] (by simpa using a) (by simpa using a₁) (by simpa using hd) 1).2
  obtain ⟨amps, ha⟩ := clusterOperators_total [1] 2 true false
  obtain ⟨out', ho''⟩ := (LinearCommutatorRun.fine c l p (o := o) (by decide) (lefts := [h]) (rights := amps) (by simpa using a.nice c l p)
    (clusterOperators_nice (by simp) ha) (by
      intro y hy r hr
      obtain rfl : y = h := by simpa using hy
      obtain ⟨k, -, -, -, -, -, -, g⟩ := clusterOperators_good ha r hr
      exact disjointLabels_of_numbers (N := 2) hn fun i hi => (g i hi).2) 1).2.1
  obtain ⟨w1, w2, w3, w4, w5⟩ := fockSpace_world
  have e1 : nOperators [h.sqOp] = 2 := by simp [nOperators, Indices.size, gh.2.2.2.1, gh.2.2.2.2.1]
  refine ⟨h, t, x, o, outs, out, out', a, a₁, a₂, ho, ho', ⟨amps, ha, ho''⟩, gh.2.1.le, hn, hnum, ?_, ?_, ?_, hd, ?_, rfl, rfl, w5, ?_, w1, w2, w3, w4,
    twoFermions_fermions, fockSpace_normalOrdered, ?_⟩
  · rw [gh.2.2.1]; norm_num
  · rw [g₁.2.2.1]; norm_num
  · rw [g₂.2.2.1]; norm_num
  · simp [nOperators, Indices.size, gh.2.2.2.1, gh.2.2.2.2.1, g₁.2.2.2.1, g₁.2.2.2.2.1]
  · rw [e1]
    simp [WideLevels, w5, g₁.2.2.2.1, g₁.2.2.2.2.1, g₂.2.2.2.1, g₂.2.2.2.2.1]
  · rw [hamiltonian_operator hh, cluster_value ht, cluster_value hx]
    decide +kernel

end Dsrg
