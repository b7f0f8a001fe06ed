import Verif.Lemmas.Bch
import Verif.Props.Combine

/-!
Properties C55 and C57: the labels in `bch_cc_rsc` and `nested_commutator_cc`, and where `bch_cc_rsc` starts.
-/

namespace Dsrg

/-! ### C55 Labels never collide -/

/-- C55 for `bch_cc_rsc`: whatever the ranks of the amplitudes, the limits and the number of levels, the two terms of every commutator it
computes have no label in common. -/
theorem C55_bch (m : Machine) (hcanon : CanonContract m.canon) (hord : m.ord.Lawful) (o : Options) (levels : List Nat) (unitary singleRef : Bool)
    (limits : List (Int × Int × Int)) (calls : List (List (Term × Term))) (outs : List (List Term))
    (h : BchRun m o levels unitary singleRef limits calls outs) :
    ∀ call ∈ calls, ∀ p ∈ call, DisjointLabels p.1 p.2 := by
  obtain ⟨maxLevel, start, rest, h1, h2, h3, -⟩ := h
  have hmax : ∀ k ∈ levels, k ≤ maxLevel := fun k hk => (List.max?_eq_some_iff.1 h1).2 k hk
  obtain ⟨g, -⟩ := BchLevels.good hcanon hord hmax (by simpa using (bchStart_good hord h2).1) h3
  exact fun call hc p hp => (g call hc p hp).2.2

/-- C55 for `nested_commutator_cc`: the factors of every product it contracts have no label in common. -/
theorem C55_nested (m : Machine) (o : Options) (level : Nat) (levels : List Nat) (unitary singleRef : Bool)
    (expansion : List (ℤ × List OpName)) (calls : List (List Term × ℚ)) (out : List Term)
    (h : NestedRun m o level levels unitary singleRef expansion calls out) :
    ∀ call ∈ calls, call.1.Pairwise DisjointLabels := by
  obtain ⟨all, h1, h2, -⟩ := h
  intro call hc
  obtain ⟨p, hp, e, -⟩ := forall₂_mem_right (nestedLoop_calls h2).1 hc
  obtain ⟨hw, -⟩ := nestedWords_mem (mem_words_of_sum h1.wordSum h1.words h1.coeff hp)
  exact (nestedFactors_good (by omega) e).2.1

/-! ### C57 Where `bch_cc_rsc` starts -/

/-- C57 fails: whatever `single_reference` is, no label of a term of level 0 stands for an active orbital. -/
theorem C57_violation (m : Machine) (hord : m.ord.Lawful) (o : Options) (levels : List Nat) (unitary singleRef : Bool)
    (limits : List (Int × Int × Int)) (calls : List (List (Term × Term))) (outs : List (List Term))
    (h : BchRun m o levels unitary singleRef limits calls outs) :
    ∃ start, outs.head? = some start ∧ ∀ t ∈ start, ∀ i ∈ labelsOf t.tensors t.sqOp, ¬ i.space.kind.Denotes .active := by
  obtain ⟨maxLevel, start, rest, h1, h2, h3, rfl⟩ := h
  refine ⟨start, rfl, fun t ht i hi => ?_⟩
  rcases (bchStart_good hord h2).2 t ht i hi with e | e <;> rw [e] <;> decide

section
variable {O R M : Type} [Fintype O] [DecidableEq O] [Inhabited O] [CommRing R] [Algebra ℚ R] [AddCommGroup M] [Module R M]

theorem expandedHamiltonian_value {ord : SetOrder} (hord : ord.Lawful) {k : Nat} (hk : k = 1 ∨ k = 2) {t : Term}
    (ht : hamiltonianOperator k 0 .spinOrbital = .ok t) {out : List Term}
    (h : expandedHamiltonian ord k = .ok out) (orb : Orbitals O) (horb : ∀ x, orb.elem x ≠ .active) (I : Interp O R M) :
    (out.map fun r => I.value orb r.coeff r.tensors r.sqOp).sum = I.value orb t.coeff t.tensors t.sqOp := by
  classical
  unfold expandedHamiltonian at h
  rw [ht] at h
  simp only [bind, Except.bind] at h
  split at h
  · cases h
  rename_i rows hrows
  have hg := expand_good hord ht hrows
  have hreg := regular_of_good fun t ht => (hg t ht).1
  have hmul : ∀ r ∈ rows, Multiple (1 / (k.factorial : ℚ) ^ 2) r.coeff := by
    intro r hr
    refine ⟨1, by rw [(hg r hr).2.2.1]; simp, Or.inr ?_⟩
    rcases hk with rfl | rfl <;> norm_num [Nat.factorial]
  rw [C49_value .spinOrbital rows hreg (fun t _ => (Multiple.totalCoeff hmul t).not_negligible) out h orb I]
  obtain ⟨ts, op, c, hm⟩ := hamiltonian_made ht
  obtain ⟨g, -⟩ := hamiltonian_good ht
  have hop : t.sqOp = op := by obtain ⟨-, -, -, rfl⟩ := Term.make_ok.1 hm; rfl
  rw [C44_expand_single_ref_partial ord hord ts op c t hm (by rw [← hop]; exact g.tidy.op) 0 rows hrows orb I, Finset.filter_true_of_mem]
  · rfl
  · intro σ _ i _
    exact horb _

/-- C57 when there are no active orbitals: the terms of level 0 add up to the Hamiltonian.  Partial: not when there are active orbitals,
whose blocks are left out. -/
theorem C57_hamiltonian_partial (m : Machine) (hord : m.ord.Lawful) (o : Options) (levels : List Nat) (unitary singleRef : Bool)
    (limits : List (Int × Int × Int)) (calls : List (List (Term × Term))) (outs : List (List Term))
    (h : BchRun m o levels unitary singleRef limits calls outs) (orb : Orbitals O) (horb : ∀ x, orb.elem x ≠ .active) (I : Interp O R M) :
    ∃ start h₁ h₂, outs.head? = some start ∧ hamiltonianOperator 1 0 .spinOrbital = .ok h₁ ∧ hamiltonianOperator 2 0 .spinOrbital = .ok h₂ ∧
      (start.map fun t => I.value orb t.coeff t.tensors t.sqOp).sum =
        I.value orb h₁.coeff h₁.tensors h₁.sqOp + I.value orb h₂.coeff h₂.tensors h₂.sqOp := by
  obtain ⟨maxLevel, start, rest, -, h2, -, rfl⟩ := h
  obtain ⟨t₁, x₁, e₁, -⟩ := C38_hamiltonian 1 0 .spinOrbital
  obtain ⟨t₂, x₂, e₂, -⟩ := C38_hamiltonian 2 0 .spinOrbital
  refine ⟨start, t₁, t₂, rfl, e₁, e₂, ?_⟩
  unfold bchStart at h2
  simp only [bind, Except.bind] at h2
  split at h2
  · cases h2
  · rename_i a ha
    split at h2
    · cases h2
    · rename_i b hb
      injection h2 with h2
      subst h2
      rw [List.map_append, List.sum_append, expandedHamiltonian_value hord (Or.inl rfl) e₁ ha orb horb I,
        expandedHamiltonian_value hord (Or.inr rfl) e₂ hb orb horb I]

end

/-- Level 0 always has a result: the four blocks of the one-body part and the sixteen blocks of the two-body part. -/
theorem C57_start (ord : SetOrder) (hord : ord.Lawful) : ∃ start, bchStart ord = .ok start := bchStart_total hord

end Dsrg
