import Verif.Lemmas.DirectT3
import Verif.Props.Forte

/-!
Property theorems about the function for three-body amplitudes.
-/

namespace Dsrg

/-- The block `cccvvv`. -/
def tripleBlock : List Space := [⟨.c, false⟩, ⟨.c, false⟩, ⟨.c, false⟩, ⟨.v, false⟩, ⟨.v, false⟩, ⟨.v, false⟩]

/-! ### C89 save_direct_t3 -/

section
variable {O R M : Type} [Fintype O] [DecidableEq O] [Inhabited O] [CommRing R] [Algebra ℚ R] [AddCommGroup M] [Module R M]

/-- The function generated from the terms of the block `cccvvv`, if `T3` is one of its parameters: `T3` becomes `T3 + R(Δ) C - e(Δ) T3`, where `Δ` is the
difference of the six diagonal Fock elements and `C` is the array of the sum of the terms of the block, each times the number of permutations of its labels.
The array whose norm is reported is the change of `T3`, and no other array changes.  `C` depends neither on the Fock elements nor on the functions `R` and
`e`, and it is antisymmetric if terms with the same open spaces have the same operator and no factor mixes the two sides. -/
theorem C89_update (orb : Orbitals O) (I : Interp O R M) (hI : I.Antisymmetric) (hH : I.Hermitian) (terms : List Term)
    (hp : ∀ t ∈ terms, Printable t) (hx : ∀ t ∈ terms, ∀ x ∈ t.tensors, ∀ n, x.arrayName ≠ 'C' :: natStr n) (b : Buckets)
    (hb : categorizeContractions terms = .ok b) (pt : List (List (List (List Index)) × List Term)) (he : (tripleBlock, pt) ∈ b) (f : DirectT3)
    (hf : directT3 pt = .ok f) (h3 : t3Name ∈ f.params) (s : Store O R) (hs : ∀ t ∈ terms, ArraysHold s I t.tensors) :
    ∃ C : List O → R,
      I.operator 3 3 C = ((terms.filter fun t => decide ((t.sqOp.lower.list ++ t.sqOp.upper.list).map Index.space = tripleBlock)).map fun t =>
        algebraMap ℚ R ((spinPermutations t.sqOp.upper.list * spinPermutations t.sqOp.lower.list : ℕ) : ℚ) •
          I.value orb t.coeff t.tensors t.sqOp).sum ∧
      ((∀ t ∈ terms, ∀ u ∈ terms, (t.sqOp.lower.list ++ t.sqOp.upper.list).map Index.space =
          (u.sqOp.lower.list ++ u.sqOp.upper.list).map Index.space → t.sqOp = u.sqOp) → (∀ t ∈ terms, OneSided t.tensors t.sqOp) →
        AntisymmetricArray orb 3 3 C) ∧
      ∀ (Fd : O → R) (ren dmp : R → R),
        (∀ i j k a b c : O, IsTriple orb [i, j, k, a, b, c] →
          (f.run orb Fd ren dmp s).1 t3Name [i, j, k, a, b, c] = s t3Name [i, j, k, a, b, c] +
            ren (Fd i + Fd j + Fd k - Fd a - Fd b - Fd c) * C [i, j, k, a, b, c] -
            dmp (Fd i + Fd j + Fd k - Fd a - Fd b - Fd c) * s t3Name [i, j, k, a, b, c]) ∧
        (∀ os, IsTriple orb os → (f.run orb Fd ren dmp s).2 os = (f.run orb Fd ren dmp s).1 t3Name os - s t3Name os) ∧
        (∀ os, ¬ IsTriple orb os → (f.run orb Fd ren dmp s).1 t3Name os = s t3Name os) ∧
        ∀ nm, nm ≠ t3Name → (f.run orb Fd ren dmp s).1 nm = s nm := by
  have hperm := block_terms hp hb he
  obtain ⟨C, c1, c2, c3⟩ := directT3_effect orb hI hH hp hx hb he rfl hf h3 s (fun t ht => hs t (List.mem_filter.1 (hperm.mem_iff.1 ht)).1)
  refine ⟨C, ?_, fun a1 a2 => c2 ⟨a1, a2⟩, fun Fd ren dmp => ?_⟩
  · rw [c1]
    exact (hperm.map _).sum_eq
  · obtain ⟨d1, d2, d3⟩ := c3 Fd ren dmp
    refine ⟨fun i j k a b c h => ?_, fun os h => ?_, fun os h => ?_, d3⟩
    · have e : tripleDelta Fd [i, j, k, a, b, c] = Fd i + Fd j + Fd k - Fd a - Fd b - Fd c := by
        simp [tripleDelta]; ring
      rw [d1, if_pos h, e]; ring
    · rw [d1, if_pos h, d2 os h]; ring
    · rw [d1, if_neg h]

/-- With the renormalised denominator `R(Δ) Δ = 1 - e(Δ)` of the DSRG this is the amplitude equation `T3 = R(Δ) (C + Δ T3)`, and the amplitudes of a block
element are stationary exactly if `R(Δ) C = e(Δ) T3`. -/
theorem C89_dsrg (orb : Orbitals O) (I : Interp O R M) (hI : I.Antisymmetric) (hH : I.Hermitian) (terms : List Term)
    (hp : ∀ t ∈ terms, Printable t) (hx : ∀ t ∈ terms, ∀ x ∈ t.tensors, ∀ n, x.arrayName ≠ 'C' :: natStr n) (b : Buckets)
    (hb : categorizeContractions terms = .ok b) (pt : List (List (List (List Index)) × List Term)) (he : (tripleBlock, pt) ∈ b) (f : DirectT3)
    (hf : directT3 pt = .ok f) (h3 : t3Name ∈ f.params) (s : Store O R) (hs : ∀ t ∈ terms, ArraysHold s I t.tensors) (Fd : O → R)
    (ren dmp : R → R) (hr : ∀ x, ren x * x = 1 - dmp x) :
    ∃ C : List O → R,
      I.operator 3 3 C = ((terms.filter fun t => decide ((t.sqOp.lower.list ++ t.sqOp.upper.list).map Index.space = tripleBlock)).map fun t =>
        algebraMap ℚ R ((spinPermutations t.sqOp.upper.list * spinPermutations t.sqOp.lower.list : ℕ) : ℚ) •
          I.value orb t.coeff t.tensors t.sqOp).sum ∧
      ∀ i j k a b c : O, IsTriple orb [i, j, k, a, b, c] → ∀ Δ : R, Δ = Fd i + Fd j + Fd k - Fd a - Fd b - Fd c →
        (f.run orb Fd ren dmp s).1 t3Name [i, j, k, a, b, c] = ren Δ * (C [i, j, k, a, b, c] + Δ * s t3Name [i, j, k, a, b, c]) ∧
        ((f.run orb Fd ren dmp s).1 t3Name [i, j, k, a, b, c] = s t3Name [i, j, k, a, b, c] ↔
          ren Δ * C [i, j, k, a, b, c] = dmp Δ * s t3Name [i, j, k, a, b, c]) := by
  obtain ⟨C, c1, -, c3⟩ := C89_update orb I hI hH terms hp hx b hb pt he f hf h3 s hs
  refine ⟨C, c1, fun i j k a b c h Δ hΔ => ?_⟩
  have e := (c3 Fd ren dmp).1 i j k a b c h
  rw [← hΔ] at e
  refine ⟨?_, ?_⟩
  · rw [e]; linear_combination (- s t3Name [i, j, k, a, b, c]) * hr Δ
  · rw [e]
    constructor
    · intro h; linear_combination h
    · intro h; linear_combination h

omit [Fintype O] [DecidableEq O] [Inhabited O] [Algebra ℚ R] in
theorem isTriple_perm (orb : Orbitals O) (Fd : O → R) {l l' u u' : List O} (hl : l.Perm l') (hu : u.Perm u') (h1 : l.length = 3) (h2 : u.length = 3) :
    (IsTriple orb (l ++ u) ↔ IsTriple orb (l' ++ u')) ∧ tripleDelta Fd (l ++ u) = tripleDelta Fd (l' ++ u') := by
  have key : ∀ l u : List O, l.length = 3 → u.length = 3 →
      (IsTriple orb (l ++ u) ↔ (∀ o ∈ l, orb.In ⟨.c, false⟩ o) ∧ ∀ o ∈ u, orb.In ⟨.v, false⟩ o) ∧
      tripleDelta Fd (l ++ u) = (l.map Fd).sum - (u.map Fd).sum := by
    intro l u h1 h2
    obtain ⟨a, b, c, rfl⟩ := List.length_eq_three.1 h1
    obtain ⟨d, e, f, rfl⟩ := List.length_eq_three.1 h2
    refine ⟨?_, rfl⟩
    simp [IsTriple, and_assoc]
  obtain ⟨k1, k2⟩ := key l u h1 h2
  obtain ⟨k3, k4⟩ := key l' u' (hl.length_eq ▸ h1) (hu.length_eq ▸ h2)
  rw [k1, k3, k2, k4, (hl.map Fd).sum_eq, (hu.map Fd).sum_eq]
  refine ⟨?_, rfl⟩
  simp only [hl.mem_iff, hu.mem_iff]

/-- The update keeps the amplitudes antisymmetric. -/
theorem C89_antisymmetric (orb : Orbitals O) (I : Interp O R M) (hI : I.Antisymmetric) (hH : I.Hermitian) (terms : List Term)
    (hp : ∀ t ∈ terms, Printable t) (hx : ∀ t ∈ terms, ∀ x ∈ t.tensors, ∀ n, x.arrayName ≠ 'C' :: natStr n) (b : Buckets)
    (hb : categorizeContractions terms = .ok b) (pt : List (List (List (List Index)) × List Term)) (he : (tripleBlock, pt) ∈ b) (f : DirectT3)
    (hf : directT3 pt = .ok f) (h3 : t3Name ∈ f.params) (s : Store O R) (hs : ∀ t ∈ terms, ArraysHold s I t.tensors)
    (hsame : ∀ t ∈ terms, ∀ u ∈ terms, (t.sqOp.lower.list ++ t.sqOp.upper.list).map Index.space =
      (u.sqOp.lower.list ++ u.sqOp.upper.list).map Index.space → t.sqOp = u.sqOp) (hone : ∀ t ∈ terms, OneSided t.tensors t.sqOp)
    (ht : AntisymmetricArray orb 3 3 (s t3Name)) (Fd : O → R) (ren dmp : R → R) :
    AntisymmetricArray orb 3 3 ((f.run orb Fd ren dmp s).1 t3Name) := by
  have hperm := block_terms hp hb he
  obtain ⟨C, -, c2, c3⟩ := directT3_effect orb hI hH hp hx hb he rfl hf h3 s (fun t ht => hs t (List.mem_filter.1 (hperm.mem_iff.1 ht)).1)
  have hC := c2 ⟨hsame, hone⟩
  have d1 := (c3 Fd ren dmp).1
  intro P Q x y hxy
  refine ⟨fun u hl hu => ?_, fun l hl hu => ?_⟩
  · obtain ⟨p1, p2⟩ := isTriple_perm orb Fd (List.Perm.append_left P (List.Perm.swap x y Q)) (List.Perm.refl u)
      (by simp only [List.length_append, List.length_cons]; omega) hu
    rw [d1, d1, p2, (hC P Q x y hxy).1 u hl hu, (ht P Q x y hxy).1 u hl hu]
    by_cases h : IsTriple orb ((P ++ x :: y :: Q) ++ u)
    · rw [if_pos h, if_pos (p1.2 h)]; ring
    · rw [if_neg h, if_neg (fun h' => h (p1.1 h'))]
  · obtain ⟨p1, p2⟩ := isTriple_perm orb Fd (List.Perm.refl l) (List.Perm.append_left P (List.Perm.swap x y Q)) hl
      (by simp only [List.length_append, List.length_cons]; omega)
    rw [d1, d1, p2, (hC P Q x y hxy).2 l hl hu, (ht P Q x y hxy).2 l hl hu]
    by_cases h : IsTriple orb (l ++ (P ++ x :: y :: Q))
    · rw [if_pos h, if_pos (p1.2 h)]; ring
    · rw [if_neg h, if_neg (fun h' => h (p1.1 h'))]

end

/-- The function is written for every list of printable terms whose factors have as many upper as lower labels; its parameters are the arrays of the factors,
each once. -/
theorem C89_total (terms : List Term) (hp : ∀ t ∈ terms, Printable t) (hk : ∀ t ∈ terms, ∀ x ∈ t.tensors, x.upper.size = x.lower.size) (b : Buckets)
    (hb : categorizeContractions terms = .ok b) (e : List Space × List (List (List (List Index)) × List Term)) (he : e ∈ b) :
    ∃ f, directT3 e.2 = .ok f ∧ f.params.Nodup ∧ ∀ nm, nm ∈ f.params ↔
      ∃ t ∈ terms, (t.sqOp.lower.list ++ t.sqOp.upper.list).map Index.space = e.1 ∧ ∃ x ∈ t.tensors, nm = x.arrayName := by
  have hperm := block_terms hp hb he
  have hflat : ∀ g ∈ e.2, ((e.1, g.1), g.2) ∈ b.flat := fun g hg => Buckets.mem_flat.2 ⟨e, he, g, hg, rfl⟩
  have hmem : ∀ g ∈ e.2, ∀ t ∈ g.2, t ∈ terms := fun g hg t ht => (((categorize_flat hb).2 _ (hflat g hg)).2 t ht).1
  have h1 := names_total (l := e.2.flatMap fun g => g.2.flatMap Term.tensors) (by
    intro x hx
    simp only [List.mem_flatMap] at hx
    obtain ⟨g, hg, t, ht, hx⟩ := hx
    exact hk t (hmem g hg t ht) x hx)
  obtain ⟨chunks, h2, -⟩ := blockBody_chunks [] e.2 (fun g hg => ambitTerms_total (fun t ht => (hp t (hmem g hg t ht)).shape) _) false
  have hok : ∃ f, directT3 e.2 = .ok f := by
    unfold directT3
    simp only [h1, h2, bind, Except.bind, pure, Except.pure]
    exact ⟨_, rfl⟩
  obtain ⟨f, hf⟩ := hok
  obtain ⟨f1, f2, -⟩ := directT3_ok hf
  refine ⟨f, hf, f2, fun nm => ?_⟩
  rw [f1 nm]
  constructor
  · rintro ⟨t, ht, h⟩
    obtain ⟨m1, m2⟩ := List.mem_filter.1 (hperm.mem_iff.1 ht)
    exact ⟨t, m1, of_decide_eq_true m2, h⟩
  · rintro ⟨t, ht, h, h'⟩
    exact ⟨t, hperm.mem_iff.2 (List.mem_filter.2 ⟨ht, decide_eq_true h⟩), h'⟩

/-- Every array the function uses is declared exactly if some term of the block has a factor called `T3`: the template uses `T3`, but only factors become
parameters. -/
theorem C89_declared_partial (terms : List Term) (hp : ∀ t ∈ terms, Printable t) (b : Buckets) (hb : categorizeContractions terms = .ok b)
    (pt : List (List (List (List Index)) × List Term)) (he : (tripleBlock, pt) ∈ b) (f : DirectT3) (hf : directT3 pt = .ok f) :
    f.Declared ↔ ∃ t ∈ terms, (t.sqOp.lower.list ++ t.sqOp.upper.list).map Index.space = tripleBlock ∧ ∃ x ∈ t.tensors, x.arrayName = ['T', '3'] := by
  have hperm := block_terms hp hb he
  have key : ∀ q ∈ pt, ∀ t ∈ q.2, Shape t ∧ t.bucketKey = .ok (tripleBlock, q.1) := fun q hq t ht => by
    obtain ⟨h1, h2⟩ := ((categorize_flat hb).2 _ (Buckets.mem_flat.2 ⟨_, he, q, hq, rfl⟩)).2 t ht
    exact ⟨(hp t h1).shape, h2⟩
  have hbody := directT3_mentions (e := (tripleBlock, pt)) hf rfl key fun q hq => ambitTerms_total (fun t ht => (key q hq t ht).1) _
  obtain ⟨f1, -, -, f3⟩ := directT3_ok hf
  have h3 : t3Name ∈ f.params ↔ ∃ t ∈ terms, (t.sqOp.lower.list ++ t.sqOp.upper.list).map Index.space = tripleBlock ∧
      ∃ x ∈ t.tensors, x.arrayName = ['T', '3'] := by
    rw [f1]
    constructor
    · rintro ⟨t, ht, x, hx, h⟩
      obtain ⟨m1, m2⟩ := List.mem_filter.1 (hperm.mem_iff.1 ht)
      exact ⟨t, m1, of_decide_eq_true m2, x, hx, h.symm⟩
    · rintro ⟨t, ht, h, x, hx, h'⟩
      exact ⟨t, hperm.mem_iff.2 (List.mem_filter.2 ⟨ht, decide_eq_true h⟩), x, hx, h'.symm⟩
  rw [← h3]
  constructor
  · rintro ⟨-, h⟩
    rw [f3] at h
    rcases h (.damp t3Name) (by simp [t3Template]) t3Name (by simp [T3Stmt.mentions]) with h | h | h
    · exact h
    · exact absurd h (by decide)
    · exact absurd h (by decide)
  · intro h
    refine ⟨hbody, fun st hst nm hnm => ?_⟩
    rw [f3] at hst
    have : nm = t3Name ∨ nm = c3Name ∨ nm = tempName := by
      simp only [t3Template, List.mem_cons, List.not_mem_nil, or_false] at hst
      rcases hst with rfl | rfl | rfl | rfl | rfl | rfl <;> simp [T3Stmt.mentions] at hnm <;> tauto
    rcases this with rfl | h' | h'
    · exact Or.inl h
    · exact Or.inr (Or.inl h')
    · exact Or.inr (Or.inr h')

/-- `H^{c2 v3}_{v1 v2} T^{c0 c1}_{v0 v3} a^{v0 v1 v2}_{c0 c1 c2}`, the leading source of three-body amplitudes, which is all there is if only the amplitudes
`T1` and `T2` are given: the function is written with the parameters `H2` and `T2`, uses `T3` and does not declare it. -/
theorem C89_violation_undeclared : ∃ t,
    Term.make [soTensor .hamiltonian 'H' 0 [lab .c 2, lab .v 3] [lab .v 1, lab .v 2], soTensor .cluster 'T' 1 [lab .c 0, lab .c 1] [lab .v 0, lab .v 3]]
      (soOp [lab .v 0, lab .v 1, lab .v 2] [lab .c 0, lab .c 1, lab .c 2]) (1 / 4) = .ok t ∧ Printable t ∧
    ∃ b, categorizeContractions [t] = .ok b ∧ ∃ pt, (tripleBlock, pt) ∈ b ∧ ∃ f, directT3 pt = .ok f ∧
      (∀ nm, nm ∈ f.params ↔ nm = ['H', '2'] ∨ nm = ['T', '2']) ∧ ¬ f.Declared := by
  have hp : ∀ t, Term.make [soTensor .hamiltonian 'H' 0 [lab .c 2, lab .v 3] [lab .v 1, lab .v 2], soTensor .cluster 'T' 1 [lab .c 0, lab .c 1] [lab .v 0, lab .v 3]]
      (soOp [lab .v 0, lab .v 1, lab .v 2] [lab .c 0, lab .c 1, lab .c 2]) (1 / 4) = .ok t → t.diag = ∅ → Printable t := fun t h h' =>
    printable_make _ _ _ h (by decide +kernel) (by decide +kernel) ⟨by decide +kernel, h', by decide +kernel⟩
  obtain ⟨t, ht, h1, h2, h3, h4⟩ := ok_with (e := Term.make [soTensor .hamiltonian 'H' 0 [lab .c 2, lab .v 3] [lab .v 1, lab .v 2],
      soTensor .cluster 'T' 1 [lab .c 0, lab .c 1] [lab .v 0, lab .v 3]]
      (soOp [lab .v 0, lab .v 1, lab .v 2] [lab .c 0, lab .c 1, lab .c 2]) (1 / 4)) (fun t => t.diag = ∅ ∧
        (t.sqOp.lower.list ++ t.sqOp.upper.list).map Index.space = tripleBlock ∧ t.tensors.map Tensor.arrayName = [['H', '2'], ['T', '2']] ∧
        ∀ x ∈ t.tensors, x.upper.size = x.lower.size) (by decide +kernel)
  have hpt := hp t ht h1
  have hpl : ∀ u ∈ [t], Printable u := fun u hu => by rw [List.mem_singleton.1 hu]; exact hpt
  refine ⟨t, ht, hpt, ?_⟩
  have hop : (soOp [lab .v 0, lab .v 1, lab .v 2] [lab .c 0, lab .c 1, lab .c 2]).Constructed := by
    refine ⟨?_, ?_, ?_⟩ <;> (try unfold Indices.Constructed) <;> decide +kernel
  obtain ⟨b, hb⟩ := C58_total .spinOrbital rfl [t] (fun u hu => by
    rw [List.mem_singleton.1 hu]
    exact ⟨_, _, _, ht, hop, rfl, h1⟩)
  obtain ⟨pt, hpm⟩ := block_exists hpl hb (List.mem_singleton.2 rfl)
  rw [h2] at hpm
  obtain ⟨f, hf, -, hpar⟩ := C89_total [t] hpl (fun u hu => by rw [List.mem_singleton.1 hu]; exact h4) b hb _ hpm
  have hnames : ∀ nm : PyStr, (∃ x ∈ t.tensors, nm = x.arrayName) ↔ nm = ['H', '2'] ∨ nm = ['T', '2'] := by
    intro nm
    have : (∃ x ∈ t.tensors, nm = x.arrayName) ↔ nm ∈ t.tensors.map Tensor.arrayName := by
      rw [List.mem_map]
      exact ⟨fun ⟨x, h, h'⟩ => ⟨x, h, h'.symm⟩, fun ⟨x, h, h'⟩ => ⟨x, h, h'.symm⟩⟩
    rw [this, h3]
    simp
  refine ⟨b, hb, pt, hpm, f, hf, fun nm => ?_, fun h => ?_⟩
  · rw [hpar nm, ← hnames]
    simp only [List.mem_singleton, exists_eq_left, h2, true_and]
  · obtain ⟨u, hu, -, x, hx, h'⟩ := (C89_declared_partial [t] hpl b hb pt hpm f hf).1 h
    rw [List.mem_singleton.1 hu] at hx
    rcases (hnames _).1 ⟨x, hx, h'.symm⟩ with h | h <;> exact absurd h (by decide)

/-! #### Example -/

/-- The parity of a list of numbers; zero if two are equal. -/
def sortSign : List (Fin 6) → ℚ
  | [] => 1
  | a :: l => (l.map fun b => if a < b then (1 : ℚ) else if b < a then -1 else 0).prod * sortSign l

theorem sortSign_swap (pre : List (Fin 6)) (a b : Fin 6) (post : List (Fin 6)) :
    sortSign (pre ++ b :: a :: post) = - sortSign (pre ++ a :: b :: post) := by
  induction pre with
  | nil =>
    simp only [List.nil_append, sortSign, List.map_cons, List.prod_cons]
    rcases lt_trichotomy a b with h | h | h
    · simp [h, h.not_gt]; ring
    · subst h; simp
    · simp [h, h.not_gt]; ring
  | cons c pre ih =>
    have : (pre ++ b :: a :: post).Perm (pre ++ a :: b :: post) := List.Perm.append_left _ (List.Perm.swap _ _ _)
    simp only [List.cons_append, sortSign, ih, (this.map _).prod_eq]
    ring

/-- Three core and three virtual orbitals. -/
def sixOrbitals : Orbitals (Fin 6) := ⟨fun o => if o < 3 then .core else .virt, fun _ => false⟩

/-- Every tensor and operator string is a product of parities. -/
def parityWorld : Interp (Fin 6) ℚ ℚ where
  tensor _ _ u l := sortSign u * sortSign l
  op u l := sortSign u * sortSign l

/-- The arrays of `parityWorld`. -/
def parityStore : Store (Fin 6) ℚ := fun _ os => sortSign (os.take (os.length / 2)) * sortSign (os.drop (os.length / 2))

theorem parityWorld_ok : parityWorld.Antisymmetric ∧ parityWorld.Hermitian := by
  refine ⟨⟨?_, ?_, ?_, ?_⟩, ?_⟩
  · intro cls name pre a b post l; simp only [parityWorld, sortSign_swap pre a b post]; ring
  · intro cls name u pre a b post; simp only [parityWorld, sortSign_swap pre a b post]; ring
  · intro pre a b post l; simp only [parityWorld, sortSign_swap pre a b post]; ring
  · intro u pre a b post; simp only [parityWorld, sortSign_swap pre a b post]; ring
  · intro cls name u l; simp only [parityWorld]; ring

theorem parityStore_ok (ts : List Tensor) (h : ∀ x ∈ ts, x.upper.list.length = x.lower.list.length) : ArraysHold parityStore parityWorld ts := by
  intro x hx u l hu hl
  have e : (u ++ l).length / 2 = u.length := by rw [List.length_append, hl, ← h x hx, ← hu]; omega
  simp only [parityStore, parityWorld]
  rw [e, List.take_left, List.drop_left]

set_option maxRecDepth 20000 in
/-- `1/12 H^{v3}_{v0} T^{c0 c1 c2}_{v1 v2 v3} a^{v0 v1 v2}_{c0 c1 c2}` meets the hypotheses; with the denominators `Fd = 1` for core and `Fd = 0` for virtual
orbitals, `R(x) = x` and `e(x) = 2` the element `T3[0,1,2,3,4,5]` changes from 1 to `1 + 3 · 3 - 2 · 1`. -/
theorem C89_example : parityWorld.Antisymmetric ∧ parityWorld.Hermitian ∧ ∃ t,
    Term.make [soTensor .hamiltonian 'H' 0 [lab .v 3] [lab .v 0], soTensor .cluster 'T' 1 [lab .c 0, lab .c 1, lab .c 2] [lab .v 1, lab .v 2, lab .v 3]]
      (soOp [lab .v 0, lab .v 1, lab .v 2] [lab .c 0, lab .c 1, lab .c 2]) (1 / 12) = .ok t ∧ Printable t ∧ OneSided t.tensors t.sqOp ∧
    ArraysHold parityStore parityWorld t.tensors ∧ ∃ b, categorizeContractions [t] = .ok b ∧ ∃ pt, (tripleBlock, pt) ∈ b ∧ ∃ f, directT3 pt = .ok f ∧
      t3Name ∈ f.params ∧ parityStore t3Name [0, 1, 2, 3, 4, 5] = 1 ∧ IsTriple sixOrbitals [0, 1, 2, 3, 4, 5] ∧
      (f.run sixOrbitals (fun o => if o < 3 then 1 else 0) (fun x => x) (fun _ => 2) parityStore).1 t3Name [0, 1, 2, 3, 4, 5] = 8 := by
  refine ⟨parityWorld_ok.1, parityWorld_ok.2, _, rfl,
    printable_make [soTensor .hamiltonian 'H' 0 [lab .v 3] [lab .v 0], soTensor .cluster 'T' 1 [lab .c 0, lab .c 1, lab .c 2] [lab .v 1, lab .v 2, lab .v 3]]
      (soOp [lab .v 0, lab .v 1, lab .v 2] [lab .c 0, lab .c 1, lab .c 2]) (1 / 12) rfl (by decide +kernel) (by decide +kernel) (by decide +kernel),
    ?_, parityStore_ok _ (by decide +kernel), _, rfl, _, List.mem_singleton.2 rfl, ?_⟩
  · unfold OneSided; decide +kernel
  · exact ok_with (fun f : DirectT3 => t3Name ∈ f.params ∧ parityStore t3Name [0, 1, 2, 3, 4, 5] = 1 ∧ IsTriple sixOrbitals [0, 1, 2, 3, 4, 5] ∧
      (f.run sixOrbitals (fun o => if o < 3 then 1 else 0) (fun x => x) (fun _ => 2) parityStore).1 t3Name [0, 1, 2, 3, 4, 5] = 8) (by decide +kernel)

end Dsrg
