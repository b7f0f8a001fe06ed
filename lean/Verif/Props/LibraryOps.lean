import Verif.Lemmas.ReadyOps
import Verif.Props.Terms
import Verif.Props.TermOps
import Verif.Props.Blocks
import Verif.Props.Commutators
import Verif.Lemmas.Exec

/-!
What a user can do with the terms built with the library: for these terms `simplify`, the canonicalizations, the expansion in blocks,
`make_excitation`, `make_one_body_diagonal` and `gradient_t` return, and their results have the right value.
-/

namespace Dsrg

theorem not_negligible {c : ℚ} (h : ¬ Negligible c) : c = 0 ∨ 1 / 10 ^ 15 ≤ |c| := by
  unfold Negligible at h
  by_cases h0 : c = 0
  · exact Or.inl h0
  · exact Or.inr (not_lt.1 fun hlt => h ⟨h0, hlt⟩)

/-- `simplify` works on every term built with the library. -/
theorem C61_library (m : Machine) (hcanon : CanonContract m.canon) (hord : m.ord.Lawful) (hcpu : 1 ≤ m.cpus) (t : Term) (h : LibraryTerm m t)
    (removeActive : Bool) : ∃ s, t.simplify m.ord true removeActive = .ok s := by
  obtain ⟨-, -, h3⟩ := h.object hcanon hord hcpu
  obtain ⟨s, hs, -⟩ := h3.simplify hord removeActive
  exact ⟨s, hs⟩

section
variable {O R M : Type} [Fintype O] [DecidableEq O] [Inhabited O] [CommRing R] [Algebra ℚ R] [AddCommGroup M] [Module R M]

/-- `simplify` returns and keeps the value of every term built with the library. -/
theorem C40_library (m : Machine) (hcanon : CanonContract m.canon) (hord : m.ord.Lawful) (hcpu : 1 ≤ m.cpus) (t : Term) (h : LibraryTerm m t)
    (removeActive : Bool) : ∃ s, t.simplify m.ord true removeActive = .ok s ∧
      ∀ (orb : Orbitals O) (I : Interp O R M), I.Physical orb → I.ActiveCumulants orb → (removeActive = true → I.NoActiveAmplitudes orb) →
        I.value orb s.coeff s.tensors s.sqOp = I.value orb t.coeff t.tensors t.sqOp := by
  obtain ⟨h1, h2, h3⟩ := h.object hcanon hord hcpu
  obtain ⟨s, hs, -⟩ := h3.simplify hord removeActive
  exact ⟨s, hs, fun orb I a b c => C40_simplify_partial m.ord hord t.tensors t.sqOp t.coeff t s h1 true removeActive h2.paired.separated hs orb I a b c⟩

/-- `canonicalize_simple` returns and keeps the value of every term built with the library. -/
theorem C40_library_simple (m : Machine) (hcanon : CanonContract m.canon) (hord : m.ord.Lawful) (hcpu : 1 ≤ m.cpus) (t : Term) (h : LibraryTerm m t)
    (hc : ¬ Negligible t.coeff) (removeActive : Bool) : ∃ r, t.canonicalizeSimple m.ord true removeActive = .ok r ∧
      ∀ (orb : Orbitals O) (I : Interp O R M), I.Physical orb → I.ActiveCumulants orb → (removeActive = true → I.NoActiveAmplitudes orb) →
        I.Antisymmetric → I.value orb r.coeff r.tensors r.sqOp = I.value orb t.coeff t.tensors t.sqOp := by
  obtain ⟨h1, h2, h3⟩ := h.object hcanon hord hcpu
  obtain ⟨r, hr⟩ := h3.canonicalizeSimple hord removeActive
  exact ⟨r, hr, fun orb I a b c d => C40_canonicalize_simple_partial m.ord hord t.tensors t.sqOp t.coeff t r h1 true removeActive
    h2.paired.separated hr (not_negligible hc) orb I a b c d⟩

/-- `canonicalize_sympy`, and `canonicalize`, return and keep the value of every term built with the library. -/
theorem C43_library (m : Machine) (hcanon : CanonContract m.canon) (hord : m.ord.Lawful) (hcpu : 1 ≤ m.cpus) (t : Term) (h : LibraryTerm m t)
    (hc : ¬ Negligible t.coeff) (removeActive hermitian : Bool) : ∃ r, t.canonicalizeSympy m.canon m.ord true removeActive hermitian = .ok r ∧
      t.canonicalize m.canon m.ord true removeActive hermitian = .ok r ∧
      ∀ (orb : Orbitals O) (I : Interp O R M), I.Antisymmetric → (hermitian = true → I.Hermitian) → I.Physical orb → I.ActiveCumulants orb →
        (removeActive = true → I.NoActiveAmplitudes orb) →
        I.value orb r.coeff r.tensors r.sqOp = I.value orb t.coeff t.tensors t.sqOp := by
  obtain ⟨h1, h2, h3⟩ := h.object hcanon hord hcpu
  obtain ⟨r, hr⟩ := h3.canonicalizeSympy hcanon hord removeActive hermitian
  refine ⟨r, hr, ?_, fun orb I a b c d e => ?_⟩
  · unfold Term.canonicalize
    rw [if_neg (by rw [h3.diag]; simp)]
    exact hr
  · refine C43_value_partial m.canon hcanon m.ord hord t.tensors t.sqOp t.coeff t r h1 true removeActive hermitian h2.paired.separated hr
      (not_negligible hc) h2.sound.bal h2.kind orb I ?_ c d e
    rw [h2.sound.upper]
    exact ⟨fun _ => a, fun h => (by cases h), b⟩

/-- `expand_composite_indices` returns, and the blocks add up to the term, for every term built with the library. -/
theorem C44_library (m : Machine) (hcanon : CanonContract m.canon) (hord : m.ord.Lawful) (hcpu : 1 ≤ m.cpus) (t : Term) (h : LibraryTerm m t)
    (start : Nat) : ∃ rows, t.expandCompositeIndices m.ord false start = .ok rows ∧
      ∀ (orb : Orbitals O) (I : Interp O R M),
        (rows.map fun r => I.value orb r.coeff r.tensors r.sqOp).sum = I.value orb t.coeff t.tensors t.sqOp := by
  obtain ⟨h1, h2, h3⟩ := h.object hcanon hord hcpu
  obtain ⟨c1, c2⟩ := SoundTerm.constructed h2.sound
  obtain ⟨rows, hr⟩ := C44_total_partial m.ord hord t.tensors t.sqOp t.coeff t h1 h2.op_nodup c1
    (by obtain ⟨x, hx, -⟩ := h2.keep; intro e; rw [e] at hx; simp at hx) c2
    (by
      intro x hx hc i hi
      obtain ⟨a, b⟩ := (h2.sound.tensor x hx).half hc
      rcases List.mem_append.1 hi with hi | hi
      · exact a.2 _ (List.mem_map_of_mem hi)
      · exact b.2 _ (List.mem_map_of_mem hi)) t.sqOp.size t.sqOp.size false start
  exact ⟨rows, hr, fun orb I => C44_expand_partial m.ord hord t.tensors t.sqOp t.coeff t h1 h2.op_nodup start rows hr orb I⟩

open Classical in
/-- `make_excitation` returns for every term built with the library, and the result is the part of the term in which every creation label is a
particle and every annihilation label is a hole, unless all labels of the operator are active. -/
theorem C62_library (m : Machine) (hcanon : CanonContract m.canon) (hord : m.ord.Lawful) (hcpu : 1 ≤ m.cpus) (t : Term) (h : LibraryTerm m t)
    (hc : ¬ Negligible t.coeff) (singleRef : Bool)
    (hact : t.sqOp.upper.list ++ t.sqOp.lower.list = [] ∨ ∃ i ∈ t.sqOp.upper.list ++ t.sqOp.lower.list, i.space.kind ≠ .a) :
    ∃ r, t.makeExcitation m.canon m.ord singleRef = .ok r ∧
      ∀ (orb : Orbitals O) (I : Interp O R M), I.Antisymmetric → I.Hermitian → I.Physical orb → I.ActiveCumulants orb → I.NoActiveAmplitudes orb →
        I.value orb r.coeff r.tensors r.sqOp = (algebraMap ℚ R t.coeff) •
          ∑ σ ∈ (orb.assignments (labelsOf t.tensors t.sqOp)).filter fun σ => ExcitesUnder orb singleRef t.sqOp (extendTo σ),
            I.pval (extendTo σ) t.tensors • I.opval (extendTo σ) t.sqOp := by
  obtain ⟨h1, h2, h3⟩ := h.object hcanon hord hcpu
  obtain ⟨r, hr⟩ := h3.makeExcitation hcanon hord singleRef
  refine ⟨r, hr, fun orb I a b c d e => ?_⟩
  refine C62_excitation_part_partial m.canon hcanon m.ord hord t.tensors t.sqOp t.coeff t r h1 singleRef hr ?_ hact h2.paired.separated ?_
    (not_negligible hc) h2.sound.bal h2.kind orb I ?_ c d e
  · exact fun i hi => h2.sound.beta rfl i (mem_labelList.2 (Or.inl hi))
  · intro x hx hcls i hi ho
    exact absurd ho (h2.density_apart hx (by simp [Tensor.isDensity, hcls]) hi)
  · rw [h2.sound.upper]
    exact ⟨fun _ => a, fun h => (by cases h), fun _ => b⟩

open Classical in
/-- `make_one_body_diagonal` returns for every one-body term built with the library, and the terms add up to the part of the term in which the
created and the annihilated orbital belong to the same elementary space. -/
theorem C67_library (m : Machine) (hcanon : CanonContract m.canon) (hord : m.ord.Lawful) (hcpu : 1 ≤ m.cpus) (t : Term) (h : LibraryTerm m t)
    (hc : ¬ Negligible t.coeff) (singleRef : Bool) (cre ann : Index) (hcre : t.sqOp.upper.list = [cre]) (hann : t.sqOp.lower.list = [ann]) :
    ∃ rows, t.makeOneBodyDiagonal m.canon m.ord singleRef = .ok rows ∧
      ∀ (orb : Orbitals O) (I : Interp O R M), I.Antisymmetric → I.Hermitian → I.Physical orb → I.ActiveCumulants orb → I.NoActiveAmplitudes orb →
        (rows.map fun r => I.value orb r.coeff r.tensors r.sqOp).sum = (algebraMap ℚ R t.coeff) •
          ∑ σ ∈ (orb.assignments (labelsOf t.tensors t.sqOp)).filter fun σ => orb.elem (extendTo σ cre) = orb.elem (extendTo σ ann) ∧
              orb.spin (extendTo σ cre) = orb.spin (extendTo σ ann) ∧ (singleRef = true → orb.elem (extendTo σ cre) ≠ .active),
            I.pval (extendTo σ) t.tensors • I.opval (extendTo σ) t.sqOp := by
  obtain ⟨h1, h2, h3⟩ := h.object hcanon hord hcpu
  obtain ⟨rows, hr⟩ := h3.makeOneBodyDiagonal hcanon hord singleRef hcre hann
  refine ⟨rows, hr, fun orb I a b c d e => ?_⟩
  refine C67_diagonal_part_partial m.canon hcanon m.ord hord t.tensors t.sqOp t.coeff t rows h1 singleRef hr cre ann hcre hann h2.paired.separated ?_
    (not_negligible hc) h2.kind orb I ?_ c d e
  · intro x hx hcls i hi ho
    refine absurd ?_ (h2.density_apart hx (by simp [Tensor.isDensity, hcls]) hi)
    rw [hcre, hann]
    rcases ho with rfl | rfl <;> simp
  · rw [h2.sound.upper]
    exact ⟨fun _ => a, fun h => (by cases h), fun _ => b⟩

/-- `gradient_t` returns for every term without operator and densities built with the library, and is its derivative. -/
theorem C68_library (m : Machine) (hcanon : CanonContract m.canon) (hord : m.ord.Lawful) (hcpu : 1 ≤ m.cpus) (t : Term) (h : LibraryTerm m t)
    (hc : ¬ Negligible t.coeff) (hop : t.sqOp.upper.list = [])
    (hden : ∀ x ∈ t.tensors, x.cls ≠ .cumulant ∧ x.cls ≠ .hole ∧ x.cls ≠ .kronecker) :
    ∃ rows, t.gradientT m.canon m.ord = .ok rows ∧
      ∀ (orb : Orbitals O) (I : Interp O R R), I.Antisymmetric → I.Hermitian → I.Physical orb → I.ActiveCumulants orb → I.NoActiveAmplitudes orb →
        I.op [] [] = 1 → ∀ ε : R, ε * ε = 0 → (I.shiftAmplitudes ε).value orb t.coeff t.tensors t.sqOp =
          I.value orb t.coeff t.tensors t.sqOp + ε * (rows.map fun r => I.value orb r.coeff r.tensors r.sqOp).sum := by
  obtain ⟨h1, h2, h3⟩ := h.object hcanon hord hcpu
  obtain ⟨rows, hr⟩ := h3.gradientT hcanon hord hop fun x hx => by
    obtain ⟨a, b, c⟩ := hden x hx
    cases e : x.cls <;> simp_all [Tensor.isDensity]
  refine ⟨rows, hr, fun orb I a b c d e e1 ε hε => ?_⟩
  refine C68_gradient m.canon hcanon m.ord hord t.tensors t.sqOp t.coeff t rows h1 hr (fun x hx _ => (h2.sound.tensor x hx).len) h2.paired.separated
    (not_negligible hc) h2.kind orb I ?_ c d e e1 ε hε
  rw [h2.sound.upper]
  exact ⟨fun _ => a, fun h => (by cases h), fun _ => b⟩

end

/-- The hypotheses can be met: the two-body Hamiltonian (C40, C43, C44, C61, C62), and the one-body Hamiltonian (C67). -/
theorem C61_library_example : ∃ t t', CanonContract exMachine.canon ∧ exMachine.ord.Lawful ∧ 1 ≤ exMachine.cpus ∧
    LibraryTerm exMachine t ∧ ¬ Negligible t.coeff ∧ (∃ i ∈ t.sqOp.upper.list ++ t.sqOp.lower.list, i.space.kind ≠ .a) ∧
    LibraryTerm exMachine t' ∧ ¬ Negligible t'.coeff ∧ t'.sqOp.upper.list = [⟨⟨.g, false⟩, 0⟩] ∧ t'.sqOp.lower.list = [⟨⟨.g, false⟩, 1⟩] := by
  obtain ⟨c, l, p⟩ := exMachine_ok
  obtain ⟨t, h, h'⟩ := exists_of_map (x := hamiltonianOperator 2 0 .spinOrbital)
    (f := fun t => (t.coeff, t.sqOp.upper.list.map Index.space)) (b := (1 / 4, [⟨.g, false⟩, ⟨.g, false⟩])) (by decide +kernel)
  obtain ⟨u, k, k'⟩ := exists_of_map (x := hamiltonianOperator 1 0 .spinOrbital)
    (f := fun t => (t.coeff, t.sqOp.upper.list, t.sqOp.lower.list)) (b := (1, [⟨⟨.g, false⟩, 0⟩], [⟨⟨.g, false⟩, 1⟩])) (by decide +kernel)
  simp only [Prod.mk.injEq] at h' k'
  refine ⟨t, u, c, l, p, .hamiltonian 2 0 t (by decide) h, ?_, ?_, .hamiltonian 1 0 u (by decide) k, ?_, k'.2.1, k'.2.2⟩
  · rw [h'.1]
    unfold Negligible
    norm_num
  · obtain ⟨i, hi, e⟩ := List.mem_map.1 (by rw [h'.2]; simp : (⟨.g, false⟩ : Space) ∈ t.sqOp.upper.list.map Index.space)
    exact ⟨i, List.mem_append_left _ hi, by rw [e]; simp⟩
  · rw [k'.1]
    unfold Negligible
    norm_num

/-- Contract completely, with one-body densities. -/
def gradientOptions : Options :=
  { maxCu := 1, maxOpen := 0, minOpen := 0, forCommutator := false, expandHole := true, nProcess := 1, hermitian := true }

/-- The hypotheses of `C68_library` can be met: the deexcitation times the excitation of a single reference, completely contracted. -/
theorem C68_library_example : ∃ t, LibraryTerm exMachine t ∧ ¬ Negligible t.coeff ∧ t.sqOp.upper.list = [] ∧
    (∀ x ∈ t.tensors, x.cls ≠ .cumulant ∧ x.cls ≠ .hole ∧ x.cls ≠ .kronecker) ∧
    ∃ rows, t.gradientT exMachine.canon exMachine.ord = .ok rows ∧ rows.length = 2 := by
  obtain ⟨x, hx⟩ := cluster_total 1 0 false 1 true
  obtain ⟨y, hy⟩ := cluster_total 1 2 true 1 true
  have gx := cluster_good hx
  have gy := cluster_good hy
  have hd : DisjointLabels x y := disjointLabels_of_numbers (N := 2) (fun i hi => by have := gx.2.2.2.2.2 i hi; omega)
    (fun i hi => by have := gy.2.2.2.2.2 i hi; omega)
  obtain ⟨l, hl, h'⟩ := exists_of_map (x := (do
      let x ← clusterOperator 1 0 false ['T'] 1 ⟨.c, false⟩ ⟨.v, false⟩ .spinOrbital
      let y ← clusterOperator 1 2 true ['T'] 1 ⟨.c, false⟩ ⟨.v, false⟩ .spinOrbital
      pure [x, y] : Except PyErr (List Term)))
    (f := fun l => ((contractExec exMachine gradientOptions l 1).map fun out =>
        out.map fun t => (t.coeff, t.sqOp.upper.list, t.tensors.map (·.cls), (t.gradientT exMachine.canon exMachine.ord).map List.length),
      (generalExec (productOps l) 1 0 0 true).map fun b => b.flatten.length, (productOps l).length))
    (b := (.ok [(1, [], [.cluster, .cluster], .ok 2)], .ok 1, 2)) (by set_option synthInstance.maxSize 1000 in set_option synthInstance.maxHeartbeats 200000 in decide +kernel)
  have hx' : clusterOperator 1 0 false ['T'] 1 ⟨.c, false⟩ ⟨.v, false⟩ .spinOrbital = .ok x := hx
  have hy' : clusterOperator 1 2 true ['T'] 1 ⟨.c, false⟩ ⟨.v, false⟩ .spinOrbital = .ok y := hy
  rw [hx', hy'] at hl
  simp only [bind, Except.bind, pure, Except.pure, Except.ok.injEq] at hl
  subst hl
  simp only [Prod.mk.injEq] at h'
  obtain ⟨h1, h2, h3⟩ := h'
  obtain ⟨out, ho, e⟩ := exists_of_map h1
  have hrun : ContractRun exMachine gradientOptions [x, y] 1 out := by
    refine contractExec_run (by simp) (by rw [h3]; decide) rfl (fun b hb => ?_) ho
    obtain ⟨b', hb', e'⟩ := exists_of_map h2
    have : b = b' := by
      have := hb.symm.trans hb'
      injection this
    rw [this, show b'.flatten.length = 1 from e']
    decide
  match out, e with
  | [t], e =>
    simp only [List.map_cons, List.map_nil, List.cons.injEq, Prod.mk.injEq, and_true] at e
    obtain ⟨e1, e2, e3, e4⟩ := e
    obtain ⟨rows, hr, hlen⟩ := exists_of_map e4
    refine ⟨t, .contracted gradientOptions [x, y] 1 [t] t (by decide) ?_ (by simpa using hd) hrun (by simp), ?_, e2, ?_, rows, hr, hlen⟩
    · intro z hz
      rcases List.mem_cons.1 hz with rfl | hz
      · exact .amplitude 1 0 false 1 true _ (by decide) hx
      · obtain rfl := List.mem_singleton.1 hz
        exact .amplitude 1 2 true 1 true _ (by decide) hy
    · rw [e1]
      unfold Negligible
      norm_num
    · intro z hz
      have : z.cls ∈ t.tensors.map (·.cls) := List.mem_map_of_mem hz
      rw [e3] at this
      have : z.cls = .cluster := by simpa using this
      rw [this]
      simp
  | [], e => simp at e
  | _ :: _ :: _, e => simp at e

end Dsrg
