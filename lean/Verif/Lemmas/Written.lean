import Verif.Lemmas.Printed
import Verif.Spec.EndToEnd
import Verif.Props.Forte

/-!
Programs printed for terms that are made by contractions: the arrays they read and the operator they leave behind.
-/

namespace Dsrg

section
variable {O R A : Type} [Fintype O] [DecidableEq O] [Inhabited O] [CommRing R] [Algebra ℚ R] [Ring A] [Algebra R A]

theorem spinPermutations_alpha {l : List Index} (h : ∀ i ∈ l, i.isBeta = false) : spinPermutations l = l.length.factorial := by
  unfold spinPermutations
  have h1 : l.countP Index.isBeta = 0 := List.countP_eq_zero.2 fun i hi => by simp [h i hi]
  have h2 : (l.countP fun i => !i.isBeta) = l.length := List.countP_eq_length.2 fun i hi => by simp [h i hi]
  rw [h1, h2]; simp

theorem Writable.permutations {t : Term} (h : Writable t) :
    spinPermutations t.sqOp.upper.list * spinPermutations t.sqOp.lower.list = t.sqOp.lower.list.length.factorial ^ 2 := by
  rw [spinPermutations_alpha fun i hi => h.nice.2.sound.beta rfl i (mem_labelList.2 (Or.inl (List.mem_append_left _ hi))),
    spinPermutations_alpha fun i hi => h.nice.2.sound.beta rfl i (mem_labelList.2 (Or.inl (List.mem_append_right _ hi))), h.nice.1.bal, sq]

theorem Writable.holds {t : Term} (h : Writable t) {s : Store O R} {I : Interp O R A} (hs : SuppliedArrays s I) : ArraysHold s I t.tensors := by
  intro x hx u l hu hl
  obtain ⟨h1, h2, h3⟩ := h.nice.factor h.noHole hx
  obtain ⟨k1, k2, k3⟩ := hs u l (by rw [hu, hl, h2])
  rw [h3, ← hu]
  rcases h1 with ⟨e1, e2⟩ | ⟨e1, e2⟩ | ⟨e1, e2⟩ <;> rw [e1, e2]
  · exact k1
  · exact k2
  · exact k3

theorem Writable.names {t : Term} (h : Writable t) {x : Tensor} (hx : x ∈ t.tensors) (n : Nat) : x.arrayName ≠ 'C' :: natStr n := by
  obtain ⟨h1, h2, h3⟩ := h.nice.factor h.noHole hx
  rw [h3]
  rcases h1 with ⟨-, e⟩ | ⟨-, e⟩ | ⟨-, e⟩ <;> rw [e] <;> intro h <;> simp at h

/-- Sums over terms, by rank. -/
theorem sum_by_rank (f : Term → A) (ns : Finset ℕ) : ∀ {l : List Term}, (∀ t ∈ l, t.sqOp.lower.list.length ∈ ns) →
    ∑ n ∈ ns, ((l.filter fun t => decide (t.sqOp.lower.list.length = n)).map f).sum = (l.map f).sum := by
  intro l
  induction l with
  | nil => simp
  | cons t l ih =>
    intro h
    rw [List.map_cons, List.sum_cons, ← ih fun t ht => h t (by simp [ht])]
    have : ∀ n ∈ ns, (((t :: l).filter fun t => decide (t.sqOp.lower.list.length = n)).map f).sum =
        (if t.sqOp.lower.list.length = n then f t else 0) + ((l.filter fun t => decide (t.sqOp.lower.list.length = n)).map f).sum := by
      intro n _
      rw [List.filter_cons]
      by_cases e : t.sqOp.lower.list.length = n
      · simp [e]
      · simp [e]
    rw [Finset.sum_congr rfl this, Finset.sum_add_distrib, Finset.sum_ite_eq, if_pos (h t (by simp))]

theorem arraysOperator_terms (orb : Orbitals O) (I : Interp O R A) {terms : List Term} (h : ∀ t ∈ terms, Writable t) (ns : Finset ℕ)
    (hns : ∀ t ∈ terms, t.sqOp.lower.list.length ∈ ns) (s : Store O R)
    (hs : ∀ n ∈ ns, I.operator n n (s ('C' :: natStr n)) = ((terms.filter fun t => decide (t.sqOp.lower.list.length = n)).map fun t =>
      algebraMap ℚ R ((spinPermutations t.sqOp.upper.list * spinPermutations t.sqOp.lower.list : ℕ) : ℚ) •
        I.value orb t.coeff t.tensors t.sqOp).sum) :
    I.arraysOperator ns s = (terms.map fun t => I.value orb t.coeff t.tensors t.sqOp).sum := by
  rw [← sum_by_rank _ ns hns]
  refine Finset.sum_congr rfl fun n hn => ?_
  rw [hs n hn, List.smul_sum, List.map_map]
  congr 1
  refine List.map_congr_left fun t ht => ?_
  obtain ⟨ht, e⟩ := List.mem_filter.1 ht
  have e : t.sqOp.lower.list.length = n := by simpa using e
  show algebraMap ℚ R _ • algebraMap ℚ R _ • I.value orb t.coeff t.tensors t.sqOp = _
  rw [(h t ht).permutations, e, ← mul_smul, ← map_mul]
  have : (n.factorial : ℚ) ≠ 0 := by exact_mod_cast Nat.factorial_ne_zero n
  rw [show (1 / (n.factorial : ℚ) ^ 2 * ((n.factorial ^ 2 : ℕ) : ℚ)) = 1 by push_cast; field_simp, map_one, one_smul]

/-- The code printed for writable terms computes the sum of their values. -/
theorem writable_computes {orb : Orbitals O} {I : Interp O R A} (hI : I.Antisymmetric) (hH : I.Hermitian) {s : Store O R} (hs : SuppliedArrays s I)
    {terms : List Term} (h : ∀ t ∈ terms, Writable t) :
    PrintedCodeComputes orb I s terms (terms.map fun t => I.value orb t.coeff t.tensors t.sqOp).sum := by
  have hp : ∀ t ∈ terms, Printable t := fun t ht => printable_of_nice (h t ht).nice (h t ht).distinct
  have hs' : ∀ t ∈ terms, ArraysHold s I t.tensors := fun t ht => (h t ht).holds hs
  have hx : ∀ t ∈ terms, ∀ x ∈ t.tensors, ∀ n, x.arrayName ≠ 'C' :: natStr n := fun t ht x hx n => (h t ht).names hx n
  refine ⟨?_, ?_⟩
  · obtain ⟨prog, h1, h2, -, h4⟩ := C69_print orb I hI hH s .spinOrbital rfl terms (fun t ht => ⟨hp t ht, (h t ht).nice.1.op.1⟩) hs' hx
    exact ⟨prog, h1, fun ranks hr => arraysOperator_terms orb I h ranks hr _ fun n _ => h2 n, h4⟩
  · intro destroyH f hf factor
    obtain ⟨h1, h2⟩ := C69_function orb I hI hH s terms hp hs' hx destroyH f hf factor
    refine ⟨arraysOperator_terms orb I h _ (fun t ht => List.mem_toFinset.2 (List.mem_map.2 ⟨t, ht, rfl⟩)) _ fun n hn => (h1 n ?_).1, fun nm a b => h2 nm (fun t _ => a _) b⟩
    obtain ⟨t, ht, e⟩ := List.mem_map.1 (List.mem_toFinset.1 hn)
    exact ⟨t, ht, e⟩

end

end Dsrg
