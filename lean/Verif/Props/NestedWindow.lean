import Verif.Lemmas.NestedWindow
import Verif.Props.OpenWindow

/-!
Properties C101 and C103 for `nested_commutator_cc`.
-/

namespace Dsrg

section
variable {O R A B : Type} [Fintype O] [DecidableEq O] [Inhabited O] [CommRing R] [Algebra ℚ R] [Ring A] [Algebra R A] [AddCommGroup B] [Module R B]

/-- C101 (`nested_commutator_cc`): the values of the returned terms add up to `1 / n! [...[[H, A], A]..., A]`, except for normal-ordered strings with
fewer than `min_n_open` or more than `max_n_open` operators, for all limits; the conditions on the mode are those of C80. -/
theorem C101_nested_commutator_cc (m : Machine) (hcanon : CanonContract m.canon) (hord : m.ord.Lawful) (o : Options)
    (n : Nat) (hn : 1 ≤ n) (levels : List Nat) (K : Nat) (hK : ∀ k ∈ levels, 1 ≤ k ∧ k ≤ K)
    (hsize : n.factorial * (4 * (K.factorial ^ 2) ^ n) ≤ 10 ^ 15) (unitary singleRef : Bool)
    (hmode : o.forCommutator = false ∨ n ≤ 2 ∨ (singleRef = true ∧ unitary = false))
    (expansion : List (ℤ × List OpName)) (calls : List (List Term × ℚ)) (out : List Term)
    (h : NestedRun m o n levels unitary singleRef expansion calls out)
    (orb : Orbitals O) (I : Interp O R A) (hI : I.SlotSymmetric true o.hermitian) (hph : I.Physical orb) (hac : I.ActiveCumulants orb)
    (hna : I.NoActiveAmplitudes orb) (field : Bool × O → A) (hfield : Fermions field) (hno : I.NormalOrdered field)
    (hcu : I.CumulantsUpTo o.maxCu) (f : A →ₗ[R] B) (hi : I.Ignores f o.maxOpen o.minOpen) :
    f (out.map fun t => I.value orb t.coeff t.tensors t.sqOp).sum =
      f (algebraMap ℚ R (1 / (n.factorial : ℚ)) • nestedCommutator
        (I.hamiltonianPart (Finset.univ.filter fun o => orb.spin o = false) 1 + I.hamiltonianPart (Finset.univ.filter fun o => orb.spin o = false) 2)
        (I.generator orb singleRef unitary levels) n) := by
  have linear : ∀ (W W' : List OpName → A), (∀ p ∈ nestedWords [OpName.H 1, OpName.H 2] (ampSymbols levels unitary) n, f (W p.2) = f (W' p.2)) →
      f (algebraMap ℚ R (1 / (n.factorial : ℚ)) • ((nestedWords [.H 1, .H 2] (ampSymbols levels unitary) n).map fun p => p.1 • W p.2).sum) =
      f (algebraMap ℚ R (1 / (n.factorial : ℚ)) • ((nestedWords [.H 1, .H 2] (ampSymbols levels unitary) n).map fun p => p.1 • W' p.2).sum) := by
    intro W W' e
    rw [map_smul, map_smul, map_list_sum, map_list_sum, List.map_map, List.map_map]
    congr 2
    refine List.map_congr_left fun p hp => ?_
    simp only [Function.comp_apply, map_zsmul, e p hp]
  cases hf : o.forCommutator with
  | false =>
    obtain ⟨W, hW, hsum⟩ := C74_nested_partial m hcanon hord o hf n hn levels K hK hsize unitary singleRef expansion calls out h orb I hI hph hac hna
    rw [hsum, ← nestedWords_generator]
    refine linear W (fun w => (w.map (I.symbolOperator orb singleRef)).prod) fun p hp => ?_
    have hw := List.mem_map_of_mem (f := Prod.snd) hp
    exact (hW p.2 hw).window (nestedWords_bodies hK hw).1 hfield hno (hI.1 rfl) hph hac hcu hi
  | true =>
    obtain ⟨W, hW, hsum⟩ := C74_nested_connected_partial m hcanon hord o hf n hn levels K hK hsize unitary singleRef
      (hmode.resolve_left (by simp [hf])) expansion calls out h orb I hI hph hac hna
    let o' : Options := { o with maxOpen := max o.maxOpen ((4 + 2 * K * n : Nat) : Int), minOpen := min o.minOpen 0 }
    have hV : ∀ w, ∃ V, w ∈ (nestedWords [OpName.H 1, OpName.H 2] (ampSymbols levels unitary) n).map Prod.snd →
        IsConnectedWordValue I orb singleRef o'.maxCu o'.maxOpen o'.minOpen w V ∧ f V = f (W w) := by
      intro w
      by_cases hw : w ∈ (nestedWords [OpName.H 1, OpName.H 2] (ampSymbols levels unitary) n).map Prod.snd
      · obtain ⟨V, k1, k2⟩ := (hW w hw).widen (nestedWords_bodies hK hw).1 hph (le_max_left _ ((4 + 2 * K * n : Nat) : Int)) (min_le_left _ 0) hi
        exact ⟨V, fun _ => ⟨k1, k2⟩⟩
      · exact ⟨0, fun h => absurd h hw⟩
    choose W' hW' using hV
    rw [hsum, ← connectedWords_nested (o := o') hn hK hI hph hac hfield hno hcu (min_le_right _ _)
      (by have := le_max_right o.maxOpen ((4 + 2 * K * n : Nat) : Int); show _ ≤ max o.maxOpen ((4 + 2 * K * n : Nat) : Int) + 2; omega)
      (W := W') fun w hw => (hW' w hw).1]
    exact linear W W' fun p hp => (hW' p.2 (List.mem_map_of_mem hp)).2.symm

/-- C103 (`nested_commutator_cc`): the returned terms without operators add up to the expectation value of `1 / n! [...[[H, A], A]..., A]`; it is
enough that terms without operators are not cut off. -/
theorem C103_nested_commutator_cc (m : Machine) (hcanon : CanonContract m.canon) (hord : m.ord.Lawful) (o : Options)
    (n : Nat) (hn : 1 ≤ n) (levels : List Nat) (K : Nat) (hK : ∀ k ∈ levels, 1 ≤ k ∧ k ≤ K)
    (hsize : n.factorial * (4 * (K.factorial ^ 2) ^ n) ≤ 10 ^ 15) (unitary singleRef : Bool)
    (hmode : o.forCommutator = false ∨ n ≤ 2 ∨ (singleRef = true ∧ unitary = false))
    (expansion : List (ℤ × List OpName)) (calls : List (List Term × ℚ)) (out : List Term)
    (h : NestedRun m o n levels unitary singleRef expansion calls out)
    (orb : Orbitals O) (I : Interp O R A) (hI : I.SlotSymmetric true o.hermitian) (hph : I.Physical orb) (hac : I.ActiveCumulants orb)
    (hna : I.NoActiveAmplitudes orb) (field : Bool × O → A) (hfield : Fermions field) (hno : I.NormalOrdered field)
    (hcu : I.CumulantsUpTo o.maxCu) (hmin : o.minOpen ≤ 0) (hmax : 0 ≤ o.maxOpen) (mean : A →ₗ[R] R)
    (hmean : IsCumulantOf I.contraction field mean) :
    ((out.filter fun t => t.sqOp.upper.list = [] ∧ t.sqOp.lower.list = []).map (I.number orb)).sum =
      mean (algebraMap ℚ R (1 / (n.factorial : ℚ)) • nestedCommutator
        (I.hamiltonianPart (Finset.univ.filter fun o => orb.spin o = false) 1 + I.hamiltonianPart (Finset.univ.filter fun o => orb.spin o = false) 2)
        (I.generator orb singleRef unitary levels) n) := by
  obtain ⟨h0, h1⟩ := (C103_cumulants I (hI.1 rfl) (hph.hole _) field hfield hno mean).1 hmean
  rw [mean_list hno h0 h1]
  exact C101_nested_commutator_cc m hcanon hord o n hn levels K hK hsize unitary singleRef hmode expansion calls out h orb I hI hph hac hna field hfield
    hno hcu mean (mean_ignores h1 hmin hmax)

theorem recursive_window {m : Machine} (hcanon : CanonContract m.canon) (hord : m.ord.Lawful) {o : Options}
    {orb : Orbitals O} {I : Interp O R A} (hI : I.SlotSymmetric true o.hermitian) (hph : I.Physical orb)
    (hac : I.ActiveCumulants orb) (hna : I.NoActiveAmplitudes orb) {field : Bool × O → A} (hfield : Fermions field) (hno : I.NormalOrdered field) :
    ∀ {levels : List (Term × Int × Int × Int)} {pool : List Term} {N : Nat} {c : ℚ} {outs : List (List Term)}, GoodList N pool →
      (∀ t ∈ pool, ∃ k : ℤ, t.coeff = k * c) → (∀ l ∈ levels, GoodTerm l.1) →
      (∀ pre l post, levels = pre ++ l :: post → ∀ i ∈ labelsOf l.1.tensors l.1.sqOp,
        N + (pre.map fun l => (labelsOf l.1.tensors l.1.sqOp).card).sum ≤ i.number) →
      (∀ pre l post, levels = pre ++ l :: post → 1 / 10 ^ 15 ≤ |c * ((pre.map fun l => l.1.coeff).prod * l.1.coeff)|) →
      RecursiveRun m o pool levels outs → ∀ (i : Nat) (t : Term) (maxCu minOpen maxOpen : Int), levels[i]? = some (t, maxCu, minOpen, maxOpen) →
      I.CumulantsUpTo maxCu → ∀ f : A →ₗ[R] B, I.Ignores f maxOpen minOpen → ∃ before after, (pool :: outs)[i]? = some before ∧ outs[i]? = some after ∧
        f (I.listValue orb after) = f (I.listValue orb before * I.value orb t.coeff t.tensors t.sqOp -
          I.value orb t.coeff t.tensors t.sqOp * I.listValue orb before) := by
  intro levels
  induction levels with
  | nil =>
    intro pool N c outs _ _ _ _ _ _ i t maxCu minOpen maxOpen hi
    simp at hi
  | cons l levels ih =>
    intro pool N c outs hp hn hl hnum hsize h i t maxCu' minOpen' maxOpen' hi hcu f hf
    obtain ⟨right, maxCu, minOpen, maxOpen⟩ := l
    obtain ⟨all, out, outs', h1, h2, h3, rfl⟩ := h
    have hr : GoodTerm right := hl (right, maxCu, minOpen, maxOpen) (by simp)
    have hrn : ∀ i ∈ labelsOf right.tensors right.sqOp, N ≤ i.number := fun i hi => by simpa using hnum [] _ levels rfl i hi
    have hd : ∀ l ∈ pool, DisjointLabels l right := fun l hl => disjointLabels_of_numbers (hp l hl).2.number hrn
    have hgood := CommutatorsRun.good hcanon hord (N := N + (labelsOf right.tensors right.sqOp).card) (fun p hpm => by
      obtain ⟨l, hl, rfl⟩ := List.mem_map.1 hpm
      exact ⟨(hp l hl).1, hr, hd l hl, Nat.add_le_add_right (hp l hl).2.card _⟩) h1
    have e : (pool.map fun l => (l, right)) = pool.flatMap fun l => [right].map fun r => (l, r) := by
      simp [List.map_eq_flatMap]
    have hc : 1 / 10 ^ 15 ≤ |c * right.coeff| := by simpa using hsize [] _ levels rfl
    have hg : ∀ l ∈ pool, ∀ r ∈ [right], GoodTerm l ∧ GoodTerm r ∧ DisjointLabels l r := by
      intro l hlm r hr'
      obtain rfl : r = right := by simpa using hr'
      exact ⟨(hp l hlm).1, hr, hd l hlm⟩
    have hco : ∀ l ∈ pool, ∀ r ∈ [right], ∃ n : ℤ, 1 * (l.coeff * r.coeff) = n * (c * right.coeff) := by
      intro l hlm r hr'
      obtain rfl : r = right := by simpa using hr'
      obtain ⟨k, hk⟩ := hn l hlm
      exact ⟨k, by rw [hk]; ring⟩
    cases i with
    | zero =>
      obtain ⟨rfl, rfl, rfl, rfl⟩ : right = t ∧ maxCu = maxCu' ∧ minOpen = minOpen' ∧ maxOpen = maxOpen' := by simpa using hi
      refine ⟨pool, out, rfl, rfl, ?_⟩
      rw [linear_window hcanon hord (o := { o with maxCu := maxCu, maxOpen := maxOpen, minOpen := minOpen }) hg hc hco (e ▸ h1) h2 hI hph hac hna
        hfield hno hcu hf]
      simp [Interp.listValue]
    | succ i =>
      obtain ⟨m1, -⟩ := commutators_listValue hcanon hord (o := { o with maxCu := maxCu, maxOpen := maxOpen, minOpen := minOpen }) hc hI hph hac hna
        (fun p hpm => by
          obtain ⟨l, hl, rfl⟩ := List.mem_map.1 hpm
          obtain ⟨g1, g2, g3⟩ := hg l hl right (by simp)
          exact ⟨g1, g2, g3, hco l hl right (by simp)⟩) h1
      have v1 := combine_multiple (fun t ht => (hgood t ht).1) m1 h2
      obtain ⟨before, after, k1, k2, k3⟩ := ih (hgood.combine h2) (c := c * right.coeff) (fun t ht => by
          obtain ⟨k, hk, -⟩ := v1 t ht
          exact ⟨k, hk⟩) (fun l hl' => hl l (by simp [hl'])) (fun pre l post e i hi => by
          have := hnum ((right, maxCu, minOpen, maxOpen) :: pre) l post (by rw [e]; rfl) i hi
          simp only [List.map_cons, List.sum_cons] at this
          omega) (fun pre l post e => by
          have := hsize ((right, maxCu, minOpen, maxOpen) :: pre) l post (by rw [e]; rfl)
          simp only [List.map_cons, List.prod_cons] at this
          rw [show c * right.coeff * ((pre.map fun l => l.1.coeff).prod * l.1.coeff) = c * (right.coeff * (pre.map fun l => l.1.coeff).prod * l.1.coeff) by ring]
          exact this) h3 i t maxCu' minOpen' maxOpen' (by simpa using hi) hcu f hf
      exact ⟨before, after, by simpa using k1, by simpa using k2, k3⟩

/-- C101 (`recursive_single_commutator`): the terms of level `i` are the commutator of the terms of the level before (the first term for level 0)
with the `i`-th right term, except for normal-ordered strings whose number of operators is outside the limits given for this level, for all
limits. -/
theorem C101_recursive_single_commutator (m : Machine) (hcanon : CanonContract m.canon) (hord : m.ord.Lawful) (hcpu : 1 ≤ m.cpus) (o : Options)
    (first : Term) (levels : List (Term × Int × Int × Int)) (hf : LibraryTerm m first) (hl : ∀ l ∈ levels, LibraryTerm m l.1)
    (N : Nat) (hN : (labelsOf first.tensors first.sqOp).card ≤ N ∧ ∀ i ∈ labelsOf first.tensors first.sqOp, i.number < N)
    (hnum : ∀ pre l post, levels = pre ++ l :: post → ∀ i ∈ labelsOf l.1.tensors l.1.sqOp,
      N + (pre.map fun l => (labelsOf l.1.tensors l.1.sqOp).card).sum ≤ i.number)
    (hsize : ∀ pre l post, levels = pre ++ l :: post → 1 / 10 ^ 15 ≤ |first.coeff * ((pre.map fun l => l.1.coeff).prod * l.1.coeff)|)
    (outs : List (List Term)) (h : RecursiveRun m o [first] levels outs)
    (orb : Orbitals O) (I : Interp O R A) (hI : I.SlotSymmetric true o.hermitian) (hph : I.Physical orb) (hac : I.ActiveCumulants orb)
    (hna : I.NoActiveAmplitudes orb) (field : Bool × O → A) (hfield : Fermions field) (hno : I.NormalOrdered field)
    (i : Nat) (t : Term) (maxCu minOpen maxOpen : Int) (hi : levels[i]? = some (t, maxCu, minOpen, maxOpen)) (hcu : I.CumulantsUpTo maxCu)
    (f : A →ₗ[R] B) (hig : I.Ignores f maxOpen minOpen) :
    ∃ before after, ([first] :: outs)[i]? = some before ∧ outs[i]? = some after ∧
      f (after.map fun t => I.value orb t.coeff t.tensors t.sqOp).sum =
        f ((before.map fun t => I.value orb t.coeff t.tensors t.sqOp).sum * I.value orb t.coeff t.tensors t.sqOp -
          I.value orb t.coeff t.tensors t.sqOp * (before.map fun t => I.value orb t.coeff t.tensors t.sqOp).sum) := by
  have hfg := (hf.nice hcanon hord hcpu).1
  exact recursive_window hcanon hord hI hph hac hna hfield hno (pool := [first]) (N := N) (c := first.coeff) (by
      intro t ht
      obtain rfl : t = first := by simpa using ht
      exact ⟨hfg, hN.1, hN.2⟩) (by
      intro t ht
      obtain rfl : t = first := by simpa using ht
      exact ⟨1, by simp⟩) (fun l hl' => ((hl l hl').nice hcanon hord hcpu).1) hnum hsize h i t maxCu minOpen maxOpen hi hcu f hig

/-- C103 (`linear_commutator`): the terms without operators add up to the expectation value of the commutator of the two sums. -/
theorem C103_linear_commutator (m : Machine) (hcanon : CanonContract m.canon) (hord : m.ord.Lawful) (hcpu : 1 ≤ m.cpus) (o : Options)
    (lefts rights : List Term) (hl : ∀ l ∈ lefts, LibraryTerm m l) (hr : ∀ r ∈ rights, LibraryTerm m r)
    (hd : ∀ l ∈ lefts, ∀ r ∈ rights, DisjointLabels l r) (scale c : ℚ) (hc : 1 / 10 ^ 15 ≤ |c|)
    (hcoeff : ∀ l ∈ lefts, ∀ r ∈ rights, ∃ n : ℤ, scale * (l.coeff * r.coeff) = n * c) (out : List Term)
    (h : LinearCommutatorRun m o lefts rights scale out)
    (orb : Orbitals O) (I : Interp O R A) (hI : I.SlotSymmetric true o.hermitian) (hph : I.Physical orb) (hac : I.ActiveCumulants orb)
    (hna : I.NoActiveAmplitudes orb) (field : Bool × O → A) (hfield : Fermions field) (hno : I.NormalOrdered field)
    (hcu : I.CumulantsUpTo o.maxCu) (hmin : o.minOpen ≤ 0) (hmax : 0 ≤ o.maxOpen) (mean : A →ₗ[R] R) (hmean : IsCumulantOf I.contraction field mean) :
    ((out.filter fun t => t.sqOp.upper.list = [] ∧ t.sqOp.lower.list = []).map (I.number orb)).sum = mean (algebraMap ℚ R scale •
      ((lefts.map fun t => I.value orb t.coeff t.tensors t.sqOp).sum * (rights.map fun t => I.value orb t.coeff t.tensors t.sqOp).sum -
        (rights.map fun t => I.value orb t.coeff t.tensors t.sqOp).sum * (lefts.map fun t => I.value orb t.coeff t.tensors t.sqOp).sum)) := by
  obtain ⟨h0, h1⟩ := (C103_cumulants I (hI.1 rfl) (hph.hole _) field hfield hno mean).1 hmean
  rw [mean_list hno h0 h1]
  exact C101_linear_commutator m hcanon hord hcpu o lefts rights hl hr hd scale c hc hcoeff out h orb I hI hph hac hna field hfield hno hcu mean
    (mean_ignores h1 hmin hmax)

/-- C103 (`recursive_single_commutator`): the terms without operators of every level add up to the expectation value of the commutator of the
terms of the level before with the right term. -/
theorem C103_recursive_single_commutator (m : Machine) (hcanon : CanonContract m.canon) (hord : m.ord.Lawful) (hcpu : 1 ≤ m.cpus) (o : Options)
    (first : Term) (levels : List (Term × Int × Int × Int)) (hf : LibraryTerm m first) (hl : ∀ l ∈ levels, LibraryTerm m l.1)
    (N : Nat) (hN : (labelsOf first.tensors first.sqOp).card ≤ N ∧ ∀ i ∈ labelsOf first.tensors first.sqOp, i.number < N)
    (hnum : ∀ pre l post, levels = pre ++ l :: post → ∀ i ∈ labelsOf l.1.tensors l.1.sqOp,
      N + (pre.map fun l => (labelsOf l.1.tensors l.1.sqOp).card).sum ≤ i.number)
    (hsize : ∀ pre l post, levels = pre ++ l :: post → 1 / 10 ^ 15 ≤ |first.coeff * ((pre.map fun l => l.1.coeff).prod * l.1.coeff)|)
    (outs : List (List Term)) (h : RecursiveRun m o [first] levels outs)
    (orb : Orbitals O) (I : Interp O R A) (hI : I.SlotSymmetric true o.hermitian) (hph : I.Physical orb) (hac : I.ActiveCumulants orb)
    (hna : I.NoActiveAmplitudes orb) (field : Bool × O → A) (hfield : Fermions field) (hno : I.NormalOrdered field)
    (i : Nat) (t : Term) (maxCu minOpen maxOpen : Int) (hi : levels[i]? = some (t, maxCu, minOpen, maxOpen)) (hcu : I.CumulantsUpTo maxCu)
    (hmin : minOpen ≤ 0) (hmax : 0 ≤ maxOpen) (mean : A →ₗ[R] R) (hmean : IsCumulantOf I.contraction field mean) :
    ∃ before after, ([first] :: outs)[i]? = some before ∧ outs[i]? = some after ∧
      ((after.filter fun t => t.sqOp.upper.list = [] ∧ t.sqOp.lower.list = []).map (I.number orb)).sum =
        mean ((before.map fun t => I.value orb t.coeff t.tensors t.sqOp).sum * I.value orb t.coeff t.tensors t.sqOp -
          I.value orb t.coeff t.tensors t.sqOp * (before.map fun t => I.value orb t.coeff t.tensors t.sqOp).sum) := by
  obtain ⟨h0, h1⟩ := (C103_cumulants I (hI.1 rfl) (hph.hole _) field hfield hno mean).1 hmean
  obtain ⟨before, after, e1, e2, e3⟩ := C101_recursive_single_commutator m hcanon hord hcpu o first levels hf hl N hN hnum hsize outs h orb I hI hph hac hna
    field hfield hno i t maxCu minOpen maxOpen hi hcu mean (mean_ignores h1 hmin hmax)
  exact ⟨before, after, e1, e2, by rw [mean_list hno h0 h1, e3]⟩

end

/-- The hypotheses of C101 and C103 for `nested_commutator_cc` can be met: the energy of three commutators in the unitary formalism, with all
contractions but without open operators; it does not vanish. -/
theorem C103_example_nested : ∃ (o : Options) (expansion : List (ℤ × List OpName)) (calls : List (List Term × ℚ)) (out : List Term),
    NestedRun exMachine o 3 [1] true true expansion calls out ∧ o.forCommutator = false ∧ o.minOpen = 0 ∧ o.maxOpen = 0 ∧
    fockSpace.CumulantsUpTo o.maxCu ∧ fockSpace.SlotSymmetric true o.hermitian ∧ fockSpace.Physical coreVirtual ∧
    fockSpace.ActiveCumulants coreVirtual ∧ fockSpace.NoActiveAmplitudes coreVirtual ∧ Fermions twoFermions ∧ fockSpace.NormalOrdered twoFermions ∧
    IsCumulantOf fockSpace.contraction twoFermions determinantMean ∧
    fockSpace.Ignores determinantMean o.maxOpen o.minOpen ∧
    determinantMean (nestedCommutator
      (fockSpace.hamiltonianPart (Finset.univ.filter fun o => coreVirtual.spin o = false) 1 +
        fockSpace.hamiltonianPart (Finset.univ.filter fun o => coreVirtual.spin o = false) 2)
      (fockSpace.generator coreVirtual true true [1]) 3) ≠ 0 := by
  obtain ⟨c, l, p⟩ := exMachine_ok
  let o : Options := { maxCu := 1, maxOpen := 0, minOpen := 0, forCommutator := false, expandHole := true, nProcess := 2, hermitian := true }
  obtain ⟨-, ⟨e, he⟩, hex⟩ := C76_nested_commutator_cc _ c l p o (by decide) 3 [1] (by simp) true true
  obtain ⟨calls, out, h⟩ := hex e he
  obtain ⟨w1, w2, w3, w4, w5⟩ := fockSpace_world
  have hm := ((C103_cumulants fockSpace (w1.1 rfl) (w2.hole _) twoFermions twoFermions_fermions fockSpace_normalOrdered _).1 fockSpace_mean).2
  exact ⟨o, e, calls, out, h, rfl, rfl, rfl, w5, w1, w2, w3, w4, twoFermions_fermions, fockSpace_normalOrdered, fockSpace_mean,
    mean_ignores hm (le_refl _) (le_refl _), by decide +kernel⟩

end Dsrg
