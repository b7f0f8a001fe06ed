import Verif.Lemmas.Written
import Verif.Lemmas.SpinTotal
import Verif.Lemmas.SpinCases
import Verif.Spec.SpinCode

/-!
Programs printed for the spin cases of terms.
-/

namespace Dsrg

section
variable {O R M : Type} [Fintype O] [DecidableEq O] [Inhabited O] [CommRing R] [Algebra ℚ R] [AddCommGroup M] [Module R M]

/-- The same tensors, with the operator strings divided by the numbers of permutations that keep the spins. -/
def Interp.shared (I : Interp O R M) (orb : Orbitals O) : Interp O R M :=
  ⟨I.tensor, fun u l => algebraMap ℚ R (spinShare orb u * spinShare orb l) • I.op u l⟩

omit [Fintype O] [DecidableEq O] [Inhabited O] in
theorem spinShare_perm (orb : Orbitals O) {a b : List O} (h : a.Perm b) : spinShare orb a = spinShare orb b := by
  unfold spinShare
  rw [h.countP_eq, h.countP_eq]

omit [Fintype O] [DecidableEq O] [Inhabited O] in
theorem Interp.Antisymmetric.shared {I : Interp O R M} (h : I.Antisymmetric) (orb : Orbitals O) : (I.shared orb).Antisymmetric := by
  have hsw : ∀ (pre : List O) a b post, (pre ++ b :: a :: post).Perm (pre ++ a :: b :: post) := fun pre a b post =>
    List.Perm.append_left _ (List.Perm.swap _ _ _)
  refine ⟨h.upper, h.lower, fun pre a b post l => ?_, fun u pre a b post => ?_⟩
  · show algebraMap ℚ R _ • I.op _ _ = - (algebraMap ℚ R _ • I.op _ _)
    rw [spinShare_perm orb (hsw pre a b post), h.opUpper, smul_neg]
  · show algebraMap ℚ R _ • I.op _ _ = - (algebraMap ℚ R _ • I.op _ _)
    rw [spinShare_perm orb (hsw pre a b post), h.opLower, smul_neg]

omit [DecidableEq O] [Inhabited O] in
theorem Interp.spinBlocksOperator_eq (I : Interp O R M) (orb : Orbitals O) (ranks : Finset ℕ) (s : Store O R) :
    I.spinBlocksOperator orb ranks s = ∑ n ∈ ranks, (I.shared orb).operator n n (s ('C' :: natStr n)) := rfl

theorem spinShare_labels (orb : Orbitals O) {S : Finset Index} {σ : S → O} (hσ : σ ∈ orb.assignments S) {l : List Index} (hl : ∀ i ∈ l, i ∈ S) :
    spinShare orb (l.map (extendTo σ)) = 1 / (spinPermutations l : ℚ) := by
  have h : ∀ i ∈ l, orb.spin (extendTo σ i) = i.isBeta := by
    intro i hi
    have := (Fintype.mem_piFinset.1 hσ) ⟨i, hl i hi⟩
    unfold extendTo
    rw [dif_pos (hl i hi)]
    exact (Finset.mem_filter.1 this).2.2.symm
  have h1 : (l.map (extendTo σ)).countP (fun o => orb.spin o) = l.countP Index.isBeta := by
    rw [List.countP_map]
    exact List.countP_congr fun i hi => by simp [h i hi]
  have h2 : (l.map (extendTo σ)).countP (fun o => !orb.spin o) = l.countP fun i => !i.isBeta := by
    rw [List.countP_map]
    exact List.countP_congr fun i hi => by simp [h i hi]
  unfold spinShare spinPermutations
  rw [h1, h2]

theorem Interp.shared_value (I : Interp O R M) (orb : Orbitals O) (c : ℚ) (ts : List Tensor) (op : SqOp) :
    algebraMap ℚ R ((spinPermutations op.upper.list * spinPermutations op.lower.list : ℕ) : ℚ) • (I.shared orb).value orb c ts op =
      I.value orb c ts op := by
  unfold Interp.value
  rw [smul_comm]
  congr 1
  rw [Finset.smul_sum]
  refine Finset.sum_congr rfl fun σ hσ => ?_
  rw [smul_comm]
  show I.pval (extendTo σ) ts • _ = _
  congr 1
  show _ • algebraMap ℚ R (spinShare orb (op.upper.list.map (extendTo σ)) * spinShare orb (op.lower.list.map (extendTo σ))) • I.opval (extendTo σ) op = _
  have hu : ∀ i ∈ op.upper.list, i ∈ labelsOf ts op := fun i hi => mem_labelsOf.2 (mem_labelList.2 (Or.inl (List.mem_append_left _ hi)))
  have hl : ∀ i ∈ op.lower.list, i ∈ labelsOf ts op := fun i hi => mem_labelsOf.2 (mem_labelList.2 (Or.inl (List.mem_append_right _ hi)))
  rw [spinShare_labels orb hσ hu, spinShare_labels orb hσ hl, ← mul_smul, ← map_mul]
  have h0 : ∀ l : List Index, (spinPermutations l : ℚ) ≠ 0 := fun l => by
    unfold spinPermutations
    exact_mod_cast Nat.mul_ne_zero (Nat.factorial_ne_zero _) (Nat.factorial_ne_zero _)
  have := h0 op.upper.list
  have := h0 op.lower.list
  rw [show (((spinPermutations op.upper.list * spinPermutations op.lower.list : ℕ) : ℚ) *
    (1 / (spinPermutations op.upper.list : ℚ) * (1 / (spinPermutations op.lower.list : ℚ)))) = 1 by push_cast; field_simp, map_one, one_smul]

theorem sum_by_rank' (f : Term → M) (ns : Finset ℕ) : ∀ {l : List Term}, (∀ t ∈ l, t.sqOp.lower.list.length ∈ ns) →
    ∑ n ∈ ns, ((l.filter fun t => decide (t.sqOp.lower.list.length = n)).map f).sum = (l.map f).sum := by
  intro l
  induction l with
  | nil => simp
  | cons t l ih =>
    intro h
    rw [List.map_cons, List.sum_cons, ← ih fun t ht => h t (by simp [ht])]
    have : ∀ n ∈ ns, (((t :: l).filter fun t => decide (t.sqOp.lower.list.length = n)).map f).sum =
        (if t.sqOp.lower.list.length = n then f t else 0) + ((l.filter fun t => decide (t.sqOp.lower.list.length = n)).map f).sum := by
      intro n _
      rw [List.filter_cons]
      by_cases e : t.sqOp.lower.list.length = n
      · simp [e]
      · simp [e]
    rw [Finset.sum_congr rfl this, Finset.sum_add_distrib, Finset.sum_ite_eq, if_pos (h t (by simp))]

/-- A term whose program computes it, in the sense of spin blocks. -/
structure SpinWritable (t : Term) : Prop where
  printable : Printable t
  type : t.sqOp.upper.ty = .spinIntegrated
  factor : ∀ x ∈ t.tensors, ((x.cls = .hamiltonian ∧ x.name = ['H']) ∨ (x.cls = .cluster ∧ x.name = ['T']) ∨ (x.cls = .cumulant ∧ x.name = ['L'])) ∧
    x.upper.list.length = x.lower.list.length
  lower : t.sqOp.lower.ty = .spinIntegrated
  tensor : ∀ x ∈ t.tensors, x.upper.ty = .spinIntegrated ∧ x.lower.ty = .spinIntegrated
  usual : ∀ x ∈ t.tensors, UsualKind x

theorem SpinWritable.coeff {t : Term} (h : SpinWritable t) (c : ℚ) : SpinWritable { t with coeff := c } := by
  obtain ⟨⟨ts, op, c₀, ht, k⟩, h2, h3, h4, h5, h6⟩ := h
  obtain ⟨m1, m2, m3, rfl⟩ := Term.make_ok.1 ht
  exact ⟨⟨ts, op, c, Term.make_ok.2 ⟨m1, m2, m3, rfl⟩, k⟩, h2, h3, h4, h5, h6⟩

theorem spinWritable_regular {l : List Term} (h : ∀ t ∈ l, SpinWritable t) : Regular .spinIntegrated l where
  name t ht x hx := ((h t ht).usual x hx).name
  kind t ht x hx t' ht' y hy e := ((h t ht).usual x hx).consistent ((h t' ht').usual y hy) e
  tensor t ht := (h t ht).tensor
  op t ht := ⟨(h t ht).type, (h t ht).lower⟩

theorem SpinWritable.array {t : Term} (h : SpinWritable t) {x : Tensor} (hx : x ∈ t.tensors) : x.arrayName = x.name ++ natStr x.upper.list.length := by
  unfold Tensor.arrayName
  rw [if_pos (show x.upper.size = x.lower.size from (h.factor x hx).2)]; rfl

theorem SpinWritable.holds {t : Term} (h : SpinWritable t) {s : Store O R} {I : Interp O R M} (hs : SuppliedArrays s I) : ArraysHold s I t.tensors := by
  intro x hx u l hu hl
  obtain ⟨h1, h2⟩ := h.factor x hx
  obtain ⟨k1, k2, k3⟩ := hs u l (by rw [hu, hl, h2])
  rw [h.array hx, ← hu]
  rcases h1 with ⟨e1, e2⟩ | ⟨e1, e2⟩ | ⟨e1, e2⟩ <;> rw [e1, e2]
  · exact k1
  · exact k2
  · exact k3

theorem SpinWritable.names {t : Term} (h : SpinWritable t) {x : Tensor} (hx : x ∈ t.tensors) (n : Nat) : x.arrayName ≠ 'C' :: natStr n := by
  obtain ⟨h1, h2⟩ := h.factor x hx
  rw [h.array hx]
  rcases h1 with ⟨-, e⟩ | ⟨-, e⟩ | ⟨-, e⟩ <;> rw [e] <;> intro h <;> simp at h

/-- The code printed for spin-integrated terms computes the sum of their values. -/
theorem spinWritable_computes {orb : Orbitals O} {I : Interp O R M} (hI : I.Antisymmetric) (hH : I.Hermitian) {s : Store O R} (hs : SuppliedArrays s I)
    {terms : List Term} (h : ∀ t ∈ terms, SpinWritable t) :
    SpinCodeComputes orb I s terms (terms.map fun t => I.value orb t.coeff t.tensors t.sqOp).sum := by
  have hs' : ∀ t ∈ terms, ArraysHold s (I.shared orb) t.tensors := fun t ht => (h t ht).holds (I := I) hs
  have hx : ∀ t ∈ terms, ∀ x ∈ t.tensors, ∀ n, x.arrayName ≠ 'C' :: natStr n := fun t ht x hx n => (h t ht).names hx n
  have hI' := hI.shared orb
  have hH' : (I.shared orb).Hermitian := hH
  have key : ∀ (ns : Finset ℕ) (s : Store O R), (∀ t ∈ terms, t.sqOp.lower.list.length ∈ ns) →
      (∀ n ∈ ns, (I.shared orb).operator n n (s ('C' :: natStr n)) = ((terms.filter fun t => decide (t.sqOp.lower.list.length = n)).map fun t =>
        algebraMap ℚ R ((spinPermutations t.sqOp.upper.list * spinPermutations t.sqOp.lower.list : ℕ) : ℚ) •
          (I.shared orb).value orb t.coeff t.tensors t.sqOp).sum) →
      I.spinBlocksOperator orb ns s = (terms.map fun t => I.value orb t.coeff t.tensors t.sqOp).sum := by
    intro ns s hns e
    rw [I.spinBlocksOperator_eq, ← sum_by_rank' _ ns hns]
    refine Finset.sum_congr rfl fun n hn => ?_
    rw [e n hn]
    congr 1
    exact List.map_congr_left fun t _ => I.shared_value orb _ _ _
  refine ⟨?_, ?_⟩
  · obtain ⟨prog, h1, h2, -, h4⟩ := C69_print orb (I.shared orb) hI' hH' s .spinIntegrated rfl terms
      (fun t ht => ⟨(h t ht).printable, (h t ht).type⟩) hs' hx
    exact ⟨prog, h1, fun ranks hr => key ranks _ hr fun n _ => h2 n, h4⟩
  · intro destroyH f hf factor
    obtain ⟨h1, h2⟩ := C69_function orb (I.shared orb) hI' hH' s terms (fun t ht => (h t ht).printable) hs' hx destroyH f hf factor
    refine ⟨key _ _ (fun t ht => List.mem_toFinset.2 (List.mem_map.2 ⟨t, ht, rfl⟩)) fun n hn => (h1 n ?_).1, fun nm a b => h2 nm (fun t _ => a _) b⟩
    obtain ⟨t, ht, e⟩ := List.mem_map.1 (List.mem_toFinset.1 hn)
    exact ⟨t, ht, e⟩

end

/-- A canonicalized term with coefficient zero is the void term. -/
theorem Term.canonicalizeSympy_zero {canon : CanonFn} {ord : SetOrder} {t r : Term} {core removeActive hermitian : Bool}
    (hr : t.canonicalizeSympy canon ord core removeActive hermitian = .ok r) (h0 : r.coeff = 0) :
    r.tensors = [] ∧ r.sqOp.upper.list = [] ∧ r.sqOp.lower.list = [] := by
  unfold Term.canonicalizeSympy at hr
  obtain ⟨s, hs, hr⟩ := bind_ok hr
  by_cases hv : s.isVoid = true
  · rw [if_pos hv] at hr
    unfold Term.void at hr
    obtain ⟨-, -, -, rfl⟩ := Term.make_ok.1 hr
    exact ⟨rfl, rfl, rfl⟩
  rw [if_neg hv] at hr
  dsimp only at hr
  obtain ⟨names, hn, hr⟩ := bind_ok hr
  obtain ⟨v, hv', hr⟩ := bind_ok hr
  split_ifs at hr with hpm
  cases hg : canon (names ++ [names.length, names.length + 1]) (dummyRanges 0 (spaceGroups (sortedDummies s.minimalIndices))) v with
  | none => rw [hg] at hr; cases hr
  | some gc =>
  rw [hg] at hr
  dsimp only at hr
  obtain ⟨op', hop, hr⟩ := bind_ok hr
  obtain ⟨ts', hts, hr⟩ := bind_ok hr
  obtain ⟨-, -, -, rfl⟩ := Term.make_ok.1 hr
  exfalso
  have hsc : s.coeff ≠ 0 := by
    intro e
    apply hv
    unfold Term.isVoid
    rw [e]; norm_num
  have h0 : (if (names ++ [names.length, names.length + 1]).getLastD 0 ≠ gc.getLastD 0 then -1 else 1) * s.coeff = 0 := h0
  split_ifs at h0 <;> simp [hsc] at h0

/-- The spin cases of a writable term are spin-writable. -/
theorem spinRow_writable {canon : CanonFn} (hcanon : CanonContract canon) {ord : SetOrder} (hord : ord.Lawful) {t : Term} (h : Writable t) (c : ℚ)
    {B : Finset Index} (hB : IsSpinLabeling t.tensors t.sqOp B) {r : Term}
    (hr : spinRow canon ord c (spinPair B t.sqOp) (t.tensors.map (spinTensor B)) = .ok r) : SpinWritable r := by
  have hs := h.nice.2.sound
  have hp := h.nice.1.tidy.toPaired
  have hov := h.nice.overlapping
  have hkind : ∀ x ∈ t.tensors, ∀ y ∈ t.tensors, x.name = y.name → x.cls = y.cls := fun x hx y hy e =>
    ((h.nice.1.kind x hx).consistent (h.nice.1.kind y hy) e).1
  have hal : ∀ i ∈ labelList t.tensors t.sqOp, i.isBeta = false := hs.beta rfl
  have hd : diagonalOf t.tensors t.sqOp = ∅ :=
    diagonal_empty (List.nodup_append.1 hp.outer).1 h.distinct.2
  obtain ⟨u, hu, hud⟩ := spin_make (B := B) hal (fun i hi _ => hp.two i hi) (by rw [hd]; simp) c
  rw [hd, Finset.image_empty] at hud
  have hw := Term.wf_of_make hu
  have hu' := hu
  obtain ⟨-, -, -, e⟩ := Term.make_ok.1 hu
  have hperm : u.tensors.Perm (t.tensors.map (spinTensor B)) := by rw [e]; exact sortTensors_perm _
  have hop : u.sqOp = spinPair B t.sqOp := by rw [e]
  have hs' := (hs.spin hB).perm hperm.symm
  have hp' := (hp.spin B hal).perm hperm.symm
  rw [← hop] at hs' hp'
  have hud' : u.diag = diagonalOf u.tensors u.sqOp := by
    rw [e]
    ext i
    show i ∈ diagonalOf _ _ ↔ _
    rw [mem_diagonalOf, mem_diagonalOf]
    simp only [(sortTensors_perm _).mem_iff]
  have hkind' : ∀ x ∈ u.tensors, ∀ y ∈ u.tensors, x.name = y.name → x.cls = y.cls := by
    intro x hx y hy e
    obtain ⟨x', hx', rfl⟩ := List.mem_map.1 (hperm.mem_iff.1 hx)
    obtain ⟨y', hy', rfl⟩ := List.mem_map.1 (hperm.mem_iff.1 hy)
    exact hkind x' hx' y' hy' e
  unfold spinRow at hr
  rw [bind_ok_of hu'] at hr
  unfold Term.canonicalize at hr
  rw [if_neg (by rw [hud]; simp)] at hr
  have hnd : ∀ x ∈ u.tensors, x.pair.indices.Nodup := by
    intro x hx
    obtain ⟨y, hy, rfl⟩ := List.mem_map.1 (hperm.mem_iff.1 hx)
    show (y.pair.upper.list.map (spinLabel B) ++ y.pair.lower.list.map (spinLabel B)).Nodup
    rw [← List.map_append]
    have hlab : ∀ i ∈ y.pair.indices, i.isBeta = false := fun i hi => hal i (mem_labelList.2 (Or.inr ⟨y, hy, hi⟩))
    exact (h.distinct.2 y hy).map_on fun a ha b hb e => spinLabel_inj (hlab a ha) (hlab b hb) e
  have hdelta : ∀ x ∈ u.tensors, ¬ ActsAsDelta true x := by
    intro x hx hda
    obtain ⟨y, hy, rfl⟩ := List.mem_map.1 (hperm.mem_iff.1 hx)
    refine h.nice.1.tidy.noDelta y hy ?_
    rcases hda with hk | ⟨-, hc, a, b, ha, hb, hk⟩
    · exact Or.inl hk
    · have ha : y.upper.list.map (spinLabel B) = [a] := ha
      have hb : y.lower.list.map (spinLabel B) = [b] := hb
      obtain ⟨a', ea, rfl⟩ := List.map_eq_singleton_iff.1 ha
      obtain ⟨b', eb, rfl⟩ := List.map_eq_singleton_iff.1 hb
      exact Or.inr ⟨rfl, hc, a', b', ea, eb, hk⟩
  obtain ⟨h1, h2, h3, -⟩ := Term.sympy_origin hw.set_sub hr
  obtain ⟨k1, k2, k3⟩ := Term.canonicalizeSympy_tidy hcanon hord hw hud' hp' hs'.bal hkind' hr
  obtain ⟨w1, w2⟩ := Term.canonicalizeSympy_wf hr
  have hnd' := k3 hnd (by
    rintro x hx - i hi j hj (e | ⟨y, hy, hd, -⟩)
    · exact e
    · exact absurd hd (hdelta y hy))
  have hty : u.sqOp.upper.ty = .spinIntegrated := by rw [hop]; rfl
  rw [hty] at h2 h3
  have hwfi : ∀ (x : Indices), x.ty = .spinIntegrated → x.list.Nodup → x.Constructed := fun x hx hn =>
    (Indices.wf_iff_make _).1 ⟨hn, fun e => by rw [hx] at e; cases e⟩
  have hsound : ∀ x ∈ r.tensors, SoundTensorOf .spinIntegrated x := by
    by_cases h0 : r.coeff = 0
    · rw [(Term.canonicalizeSympy_zero hr h0).1]; simp
    · obtain ⟨s, s1, s2, -, -⟩ := Term.simplify_total hord true hw (by rw [hud]; exact Finset.empty_subset _) hp' hs'
        (by
          intro y hy
          obtain ⟨x, hx, rfl⟩ := List.mem_map.1 (hperm.mem_iff.1 hy)
          exact (hov x hx).spin (fun i hi => hal i (mem_labelList.2 (Or.inr ⟨x, hx, hi⟩))) (hB.2.2 x hx))
        (by
          obtain ⟨x, hx, hxd⟩ := h.nice.2.keep
          exact ⟨_, hperm.mem_iff.2 (List.mem_map_of_mem hx), hxd⟩)
      obtain ⟨f, horigin, -⟩ := Term.simplify_origin s1
      obtain ⟨r', r1, r2, -, -⟩ := Term.canonicalizeSympy_total rfl hcanon true s1 (Term.simplify_shape hw.set_sub s1).1 s2 (by
        intro x hx y hy e
        obtain ⟨x', hx', -, rfl⟩ := horigin x hx
        obtain ⟨y', hy', -, rfl⟩ := horigin y hy
        exact hkind' x' hx' y' hy' e)
      obtain rfl : r' = r := by
        have := r1.symm.trans hr
        injection this
      exact (r2 h0).tensor
  obtain ⟨ts, op, c', hmade⟩ := Term.canonicalizeSympy_made hr
  have hm := hmade
  obtain ⟨-, -, -, rfl⟩ := Term.make_ok.1 hm
  have hpt := sortTensors_perm ts
  refine ⟨⟨ts, op, c', hmade, ⟨hwfi _ h2 w1.1, hwfi _ h3 w2.1, ?_⟩, ?_, ?_, ?_, k2⟩, h2, ?_, h3, fun x hx => ⟨(hsound x hx).upper, (hsound x hx).lower⟩, ?_⟩
  · unfold IndicesPair.make
    rw [if_neg (by rw [show op.upper.ty = _ from h2, show op.lower.ty = _ from h3]; simp)]
  · intro x hx
    have hx' := hpt.mem_iff.2 hx
    have hn := List.nodup_append.1 (hnd' x hx')
    have hsx := hsound x hx'
    exact ⟨hwfi _ hsx.upper hn.1, hwfi _ hsx.lower hn.2.1, hsx.make fun e => by cases e⟩
  · rw [show op.upper.ty = _ from h2]; rfl
  · exact diagonal_empty (List.nodup_append.1 k1.outer).1 fun x hx => hnd' x (hpt.mem_iff.2 hx)
  · intro x hx
    refine ⟨?_, (hsound x hx).len⟩
    obtain ⟨⟨y, hy, e⟩, -⟩ := h1 x hx
    rw [kind_eq] at e
    obtain ⟨y', hy', rfl⟩ := List.mem_map.1 (hperm.mem_iff.1 hy)
    obtain ⟨a, -, -⟩ := h.nice.factor h.noHole hy'
    rw [e.1, e.2.1]
    exact a
  · intro x hx
    obtain ⟨⟨y, hy, e⟩, -⟩ := h1 x hx
    rw [kind_eq] at e
    obtain ⟨y', hy', rfl⟩ := List.mem_map.1 (hperm.mem_iff.1 hy)
    have := h.nice.1.kind y' hy'
    unfold UsualKind at this ⊢
    rw [e.1, e.2.1, e.2.2.1]; exact this

end Dsrg
