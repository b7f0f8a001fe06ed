import Verif.Lemmas.Exec
import Verif.Lemmas.Orders
import Verif.Spec.Toy

/-!
Properties of `contract_terms` and `single_commutator`: C50, C53, C54.
-/

namespace Dsrg

/-! ### C50 results do not depend on scheduling -/

/-- C50 for `contract_terms`: when a call returns, the call with any other number of processes and processors can return, and whatever
it returns is the same list of terms, in any order of the contractions, of the results of the workers, and with any division into
batches. -/
theorem C50_contract_terms (m : Machine) (o : Options) (terms : List Term) (h : OrdinaryFactors terms) (scale : ℚ) (out : List Term)
    (hr : ContractRun m o terms scale out) (nProcess cpus : Nat) :
    (∃ out', ContractRun { m with cpus := cpus } { o with nProcess := nProcess } terms scale out') ∧
    ∀ out', ContractRun { m with cpus := cpus } { o with nProcess := nProcess } terms scale out' →
      out'.map Term.visible = out.map Term.visible := by
  refine ⟨hr.exists h nProcess cpus, fun out' hr' => ?_⟩
  have ht : SameTask m { m with cpus := cpus } o { o with nProcess := nProcess } := ⟨rfl, rfl, rfl, rfl, rfl, rfl, rfl, rfl⟩
  by_cases h2 : (productOps terms).length < 2
  · cases terms with
    | nil => exact absurd hr (by simp [ContractRun])
    | cons first rest =>
      unfold ContractRun at hr hr'
      simp only [] at hr hr'
      rw [if_pos h2] at hr hr'
      obtain ⟨t, e, rfl⟩ := hr
      obtain ⟨t', e', rfl⟩ := hr'
      rw [e] at e'
      injection e' with e'
      rw [e']
  · obtain ⟨b, results, all, hb, hf, hrow, hres, -, ho, hreg, rfl⟩ := hr.spec h h2
    obtain ⟨b', results', all', hb', hf', hrow', hres', -, ho', hreg', rfl⟩ := hr'.spec h h2
    refine combine_visible_of_total hreg' hreg fun t => ?_
    rw [ho'.total, ho.total]
    obtain ⟨r, hr1, hr2, hr3⟩ := ContractRun.compare ht h (k := 1) (one_close _) h2 hr (by rw [one_mul]; exact hr')
    rw [scale_one] at hr3
    have e1 : totalCoeff (sortedTerms (combinedList all)) t = totalCoeff results t := by
      rw [totalCoeff_combine_of_multiple_total hreg (fun t => ho.total t ▸ Multiple.totalCoeff (fun r hr => (hres r hr).2) t), ho.total]
    have e2 : totalCoeff (sortedTerms (combinedList all')) t = totalCoeff results' t := by
      rw [totalCoeff_combine_of_multiple_total hreg' (fun t => ho'.total t ▸ Multiple.totalCoeff (fun r hr => (hres' r hr).2) t), ho'.total]
    rw [← e1, ← e2, hr2.total, hr3.total]

/-- C50 for `single_commutator`. -/
theorem C50_single_commutator (m : Machine) (o : Options) (a b : Term) (h : OrdinaryFactors [a, b]) (scale : ℚ) (out : List Term)
    (hr : CommutatorRun m o a b scale out) (nProcess cpus : Nat) :
    ∀ out', CommutatorRun { m with cpus := cpus } { o with nProcess := nProcess } a b scale out' →
      out'.map Term.visible = out.map Term.visible := by
  intro out' hr'
  have ht : SameTask m { m with cpus := cpus } o { o with nProcess := nProcess } := ⟨rfl, rfl, rfl, rfl, rfl, rfl, rfl, rfl⟩
  by_cases h2 : (productOps [a, b]).length < 2
  · rw [hr.trivial h h2, hr'.trivial h h2]
  · have h2' : ¬ (productOps [b, a]).length < 2 := by rw [← (productOps_swap a b).length_eq]; exact h2
    obtain ⟨o₁, o₂, h1, h3, hc⟩ := hr.parts h2
    obtain ⟨o₁', o₂', h1', h3', hc'⟩ := hr'.parts h2
    obtain ⟨r₁, hr₁, hA, hB⟩ := ContractRun.compare ht h (k := 1) (one_close _) h2 h1 (by rw [one_mul]; exact h1')
    obtain ⟨r₂, hr₂, hC, hD⟩ := ContractRun.compare ht h.swap (k := 1) (one_close _) h2' h3 (by rw [one_mul]; exact h3')
    rw [scale_one] at hB hD
    obtain ⟨k1, rfl, k2⟩ := CommutatorRun.total h hA hC (fun r hr => (hr₁ r hr).1) (fun r hr => (hr₂ r hr).1) hc
    obtain ⟨k1', rfl, k2'⟩ := CommutatorRun.total h hB hD (fun r hr => (hr₁ r hr).1) (fun r hr => (hr₂ r hr).1) hc'
    exact combine_visible_of_total k1' k1 fun t => by rw [k2, k2']

/-! ### C53 the commutator is antisymmetric and linear in the scale -/

/-- C53, antisymmetry: `[B, A]` has the terms of `[A, B]`, in the same order, with opposite coefficients. -/
theorem C53_antisymmetric (m : Machine) (o : Options) (a b : Term) (h : OrdinaryFactors [a, b]) (scale : ℚ) (out out' : List Term)
    (hr : CommutatorRun m o a b scale out) (hr' : CommutatorRun m o b a scale out') :
    out'.map Term.visible = out.map fun t => (-t.coeff, t.tensors, t.sqOp) := by
  by_cases h2 : (productOps [a, b]).length < 2
  · have h2' : (productOps [b, a]).length < 2 := by rw [← (productOps_swap a b).length_eq]; exact h2
    rw [hr.trivial h h2, hr'.trivial h.swap h2']; rfl
  · have h2' : ¬ (productOps [b, a]).length < 2 := by rw [← (productOps_swap a b).length_eq]; exact h2
    obtain ⟨o₁, o₂, h1, h3, hc⟩ := hr.parts h2
    obtain ⟨o₁', o₂', h1', h3', hc'⟩ := hr'.parts h2'
    obtain ⟨r₁, hr₁, hA, hB⟩ := ContractRun.compare ⟨rfl, rfl, rfl, rfl, rfl, rfl, rfl, rfl⟩ h (k := -1) (neg_close _) h2 h1 h3'
    have h3n : ContractRun m o [b, a] scale o₁' := h1'
    obtain ⟨r₂, hr₂, hC, hD⟩ := ContractRun.compare ⟨rfl, rfl, rfl, rfl, rfl, rfl, rfl, rfl⟩ h.swap (k := -1) (neg_close _) h2' h3n h3
    obtain ⟨k1, rfl, k2⟩ := CommutatorRun.total h hA hD (fun r hr => (hr₁ r hr).1) (outTerm_scale fun r hr => (hr₂ r hr).1) hc
    obtain ⟨k1', rfl, k2'⟩ := CommutatorRun.total h.swap hC hB (fun r hr => (hr₂ r hr).1) (outTerm_scale fun r hr => (hr₁ r hr).1) hc'
    have := combine_visible_scale k1 k1' (k := -1) (by norm_num) (fun t => by
      rw [k2, k2', totalCoeff_scale, totalCoeff_scale]; ring) (fun t => by rw [neg_one_mul, abs_neg])
    simpa using this

/-- C53, scaling: multiplying the scale by `k` multiplies every coefficient by `k`, provided that the product of the coefficients is
not taken for zero. -/
theorem C53_scale (m : Machine) (o : Options) (a b : Term) (h : OrdinaryFactors [a, b]) (scale k : ℚ) (hk : k ≠ 0)
    (hn : ¬ Negligible (scale * a.coeff * b.coeff)) (hn' : ¬ Negligible (k * scale * a.coeff * b.coeff)) (out out' : List Term)
    (hr : CommutatorRun m o a b scale out) (hr' : CommutatorRun m o a b (k * scale) out') :
    out'.map Term.visible = out.map fun t => (k * t.coeff, t.tensors, t.sqOp) := by
  by_cases h2 : (productOps [a, b]).length < 2
  · rw [hr.trivial h h2, hr'.trivial h h2]; rfl
  · have h2' : ¬ (productOps [b, a]).length < 2 := by rw [← (productOps_swap a b).length_eq]; exact h2
    have hclose : |k * productCoeff [a, b] scale| < 1 / 10 ^ 15 ↔ |productCoeff [a, b] scale| < 1 / 10 ^ 15 := by
      have e1 : productCoeff [a, b] scale = scale * a.coeff * b.coeff := rfl
      have e2 : k * productCoeff [a, b] scale = k * scale * a.coeff * b.coeff := by rw [e1]; ring
      rw [e2, e1]
      unfold Negligible at hn hn'
      by_cases h0 : scale * a.coeff * b.coeff = 0
      · have : k * scale * a.coeff * b.coeff = 0 := by rw [← e2, e1, h0, mul_zero]
        rw [h0, this]
      · have h0' : k * scale * a.coeff * b.coeff ≠ 0 := by rw [← e2, e1]; exact mul_ne_zero hk h0
        exact ⟨fun hc => absurd ⟨h0', hc⟩ hn', fun hc => absurd ⟨h0, hc⟩ hn⟩
    have hcs : productCoeff [b, a] (-1 * scale) = -productCoeff [a, b] scale := by
      rw [productCoeff_mul, productCoeff_swap, neg_one_mul]
    obtain ⟨o₁, o₂, h1, h3, hc⟩ := hr.parts h2
    obtain ⟨o₁', o₂', h1', h3', hc'⟩ := hr'.parts h2
    obtain ⟨r₁, hr₁, hA, hB⟩ := ContractRun.compare ⟨rfl, rfl, rfl, rfl, rfl, rfl, rfl, rfl⟩ h (k := k) hclose h2 h1 h1'
    obtain ⟨r₂, hr₂, hC, hD⟩ := ContractRun.compare ⟨rfl, rfl, rfl, rfl, rfl, rfl, rfl, rfl⟩ h.swap (k := k)
      (by rw [hcs, mul_neg, abs_neg, abs_neg]; exact hclose) h2' h3 (by rw [mul_left_comm]; exact h3')
    obtain ⟨k1, rfl, k2⟩ := CommutatorRun.total h hA hC (fun r hr => (hr₁ r hr).1) (fun r hr => (hr₂ r hr).1) hc
    obtain ⟨k1', rfl, k2'⟩ := CommutatorRun.total h hB hD (outTerm_scale fun r hr => (hr₁ r hr).1) (outTerm_scale fun r hr => (hr₂ r hr).1) hc'
    refine combine_visible_scale k1 k1' hk (fun t => by rw [k2, k2', totalCoeff_scale, totalCoeff_scale, mul_add]) fun t => ?_
    rw [k2]
    obtain ⟨n, en, hn1⟩ := Multiple.totalCoeff (fun r hr => (hr₁ r hr).2) t
    obtain ⟨n', en', hn2⟩ := Multiple.totalCoeff (fun r hr => (hr₂ r hr).2) t
    rw [hcs] at en' hn2
    rw [en, en', abs_neg] at *
    have e : (n : ℚ) * productCoeff [a, b] scale + n' * -productCoeff [a, b] scale = ((n - n' : ℤ) : ℚ) * productCoeff [a, b] scale := by
      push_cast; ring
    rw [e]
    by_cases hz : n - n' = 0
    · rw [hz]; simp
    · have hbig : 1 / 10 ^ 15 ≤ |productCoeff [a, b] scale| := by
        rcases hn1 with hn1 | hn1
        · rcases hn2 with hn2 | hn2
          · exact absurd (by rw [hn1, hn2]; rfl) hz
          · exact hn2
        · exact hn1
      have hbig' : 1 / 10 ^ 15 ≤ |k * productCoeff [a, b] scale| := not_lt.1 fun hc => absurd (hclose.1 hc) (not_lt.2 hbig)
      have h1 : (1 : ℚ) ≤ |((n - n' : ℤ) : ℚ)| := by rw [← Int.cast_abs]; exact_mod_cast Int.one_le_abs hz
      have g1 : 1 / 10 ^ 15 ≤ |((n - n' : ℤ) : ℚ) * productCoeff [a, b] scale| := by
        rw [abs_mul]; exact hbig.trans (le_mul_of_one_le_left (abs_nonneg _) h1)
      have g2 : 1 / 10 ^ 15 ≤ |k * (((n - n' : ℤ) : ℚ) * productCoeff [a, b] scale)| := by
        rw [mul_left_comm, abs_mul]; exact hbig'.trans (le_mul_of_one_le_left (abs_nonneg _) h1)
      exact ⟨fun _ => g1, fun _ => g2⟩

/-! ### C54 limits of open labels -/

/-- The rows that the returned terms come from. -/
theorem ContractRun.conserved {m : Machine} (hcanon : CanonContract m.canon) {o : Options} {terms : List Term} (h : OrdinaryFactors terms) {scale : ℚ}
    {out : List Term} (hr : ContractRun m o terms scale out) (h2 : ¬ (productOps terms).length < 2) :
    ∀ t ∈ out, ∃ row, Conserves (productOps terms) o.maxOpen o.minOpen row ∧ t.sqOp.upper.list.length = row.2.2.upper.size ∧
      t.sqOp.lower.list.length = row.2.2.lower.size := by
  obtain ⟨b, results, all, hb, hf, hrow, hres, hsz, ho, hreg, rfl⟩ := hr.spec h h2
  intro t ht
  obtain ⟨u, hu1, hu2, hu3, hu4⟩ := (mem_combine_iff hreg t.visible).1 ⟨t, ht, rfl⟩
  have hne := threshold_ne hu4
  rw [hu3, ho.total] at hne
  have : ∃ r ∈ results, r.Same u ∧ r.coeff ≠ 0 := by
    by_contra hcon
    push Not at hcon
    apply hne
    unfold totalCoeff
    refine List.sum_eq_zero fun x hx => ?_
    obtain ⟨r, hr, rfl⟩ := List.mem_map.1 hx
    obtain ⟨hr1, hr2⟩ := List.mem_filter.1 hr
    exact hcon r hr1 (by simpa using hr2)
  obtain ⟨r, hr, hs, hc⟩ := this
  obtain ⟨row, hrw, e⟩ := forall₂_mem_right hf hr
  obtain ⟨-, c, hA, hrc⟩ := hrow row hrw
  obtain ⟨e1, e2⟩ := (hsz row r hrw e).resolve_left hc hcanon
  have hop : t.sqOp = r.sqOp := by rw [hs.2, hu2]; rfl
  rw [hop]
  exact ⟨row, conserves (goodOps_productOps h.ops) hA o.expandHole row hrc, e1, e2⟩

/-- C54 when at least two operators are not empty: the number of labels of the operator of every returned term is in the window.
Partial: without this condition the product is returned whatever its number of labels, see `C54_violation`. -/
theorem C54_partial (m : Machine) (hcanon : CanonContract m.canon) (o : Options) (terms : List Term) (h : OrdinaryFactors terms) (scale : ℚ)
    (out : List Term) (hr : ContractRun m o terms scale out) (h2 : 2 ≤ (terms.filter fun t => t.sqOp.upper.list.length + t.sqOp.lower.list.length ≠ 0).length) :
    ∀ t ∈ out, o.minOpen ≤ (t.sqOp.upper.list.length + t.sqOp.lower.list.length : Nat) ∧
      (t.sqOp.upper.list.length + t.sqOp.lower.list.length : Nat) ≤ o.maxOpen := by
  have h2' : ¬ (productOps terms).length < 2 := by
    have : (productOps terms).length = (terms.filter fun t => t.sqOp.upper.list.length + t.sqOp.lower.list.length ≠ 0).length := by
      unfold productOps
      rw [List.filter_map, List.length_map]; rfl
    omega
  intro t ht
  obtain ⟨row, hcons, f1, f2⟩ := hr.conserved hcanon h h2' t ht
  rw [f1, f2]
  exact hcons.window

/-! ### Examples -/

/-- `H^{v0}_{c0} a^{c0}_{v0}`. -/
def exLeft : Term :=
  ⟨1, soOp [lab .c 0] [lab .v 0], [soTensor .hamiltonian 'H' 0 [lab .v 0] [lab .c 0]], {lab .c 0, lab .v 0}, fun _ => 1, ∅⟩

/-- `T^{c1}_{v1} a^{v1}_{c1}`. -/
def exRight : Term :=
  ⟨1, soOp [lab .v 1] [lab .c 1], [soTensor .cluster 'T' 3 [lab .c 1] [lab .v 1]], {lab .c 1, lab .v 1}, fun _ => 2, ∅⟩

theorem exFactors : OrdinaryFactors [exLeft, exRight] where
  ops := by decide +kernel
  tensor := by decide +kernel
  name := by decide +kernel
  kind := by decide +kernel
  density := by
    intro t ht x hx cls hcls
    simp only [List.mem_cons, List.not_mem_nil, or_false] at ht
    rcases ht with rfl | rfl <;> simp only [exLeft, exRight, List.mem_cons, List.not_mem_nil, or_false] at hx <;> subst hx <;>
      rcases hcls with rfl | rfl | rfl <;> decide

/-- At most two open labels, no expansion of hole densities. -/
def exOptions : Options := ⟨1, 2, 0, false, false, 3, true⟩

theorem exSmall {a b : Term} {o : Options} (h : (match generalExec (productOps [a, b]) o.maxCu o.maxOpen o.minOpen o.expandHole with
    | .ok b => decide (b.flatten.length < 10000) | .error _ => false) = true) :
    ∀ c, generalExec (productOps [a, b]) o.maxCu o.maxOpen o.minOpen o.expandHole = .ok c → c.flatten.length < 10000 := by
  intro c hc; rw [hc] at h; simpa using h

theorem contractExec_lazy {o : Options} {terms : List Term} {scale : ℚ} {out : List Term}
    (h : contractExec ⟨safeCanon, SetOrder.sorted, 4⟩ o terms scale = .ok out) : contractExec ⟨lazyCanon, SetOrder.sorted, 4⟩ o terms scale = .ok out :=
  contractExec_mono (m := ⟨lazyCanon, SetOrder.sorted, 4⟩) (m' := ⟨safeCanon, SetOrder.sorted, 4⟩) (fun _ _ _ _ h => safeCanon_lazy h) rfl h

/-- A product that meets the hypotheses of C50 and C54, with a function that keeps SymPy's contract: three contractions out of four
are inside the limits. -/
theorem C54_example : ∃ (m : Machine) (out : List Term), CanonContract m.canon ∧ OrdinaryFactors [exLeft, exRight] ∧
    ContractRun m exOptions [exLeft, exRight] 1 out ∧ out.map Term.coeff = [1, -1, 1] ∧ out.map (fun t => t.sqOp.upper.list.length) = [0, 1, 1] := by
  obtain ⟨out, h1, h2⟩ := exists_of_map (x := contractExec ⟨safeCanon, SetOrder.sorted, 4⟩ exOptions [exLeft, exRight] 1)
    (f := fun out => out.map fun t => (t.coeff, t.sqOp.upper.list.length)) (b := [(1, 0), (-1, 1), (1, 1)]) (by decide +kernel)
  have h1' := contractExec_lazy h1
  refine ⟨⟨lazyCanon, SetOrder.sorted, 4⟩, out, lazyCanon_contract, exFactors,
    contractExec_run (by simp) (by decide +kernel) rfl (exSmall (by decide +kernel)) h1', ?_, ?_⟩
  · have := congrArg (List.map Prod.fst) h2
    simpa [Function.comp_def] using this
  · have := congrArg (List.map Prod.snd) h2
    simpa [Function.comp_def] using this

/-- A commutator that meets the hypotheses of C50 and C53. -/
theorem C53_example : ∃ (m : Machine) (out : List Term), CanonContract m.canon ∧ OrdinaryFactors [exLeft, exRight] ∧
    CommutatorRun m exOptions exLeft exRight 1 out ∧ out.map Term.coeff = [1, -1, 1] := by
  obtain ⟨o₁, h1, h2⟩ := exists_of_map (x := contractExec ⟨safeCanon, SetOrder.sorted, 4⟩ exOptions [exLeft, exRight] 1)
    (f := fun o₁ => (contractExec ⟨safeCanon, SetOrder.sorted, 4⟩ exOptions [exRight, exLeft] (-1) >>= fun o₂ => combineTerms (o₁ ++ o₂)).map
      fun out => out.map fun t => t.coeff) (b := .ok [1, -1, 1]) (by decide +kernel)
  obtain ⟨out, h3, h4⟩ := exists_of_map h2
  simp only [bind, Except.bind] at h3
  cases h5 : contractExec ⟨safeCanon, SetOrder.sorted, 4⟩ exOptions [exRight, exLeft] (-1) with
  | error e => rw [h5] at h3; simp at h3
  | ok o₂ =>
    rw [h5] at h3
    have h1' := contractExec_lazy h1
    have h5' := contractExec_lazy h5
    refine ⟨⟨lazyCanon, SetOrder.sorted, 4⟩, out, lazyCanon_contract, exFactors, ?_, h4⟩
    unfold CommutatorRun
    rw [if_neg (by decide)]
    exact ⟨o₁, o₂, contractExec_run (by simp) (by decide +kernel) rfl (exSmall (by decide +kernel)) h1',
      contractExec_run (by simp) (by decide +kernel) rfl (exSmall (by decide +kernel)) h5', h3⟩

/-- C54 fails when fewer than two operators are not empty: a limit of no open labels, and the product has two. -/
theorem C54_violation : ∀ m : Machine, ∃ (o : Options) (terms : List Term) (out : List Term), OrdinaryFactors terms ∧
    ContractRun m o terms 1 out ∧ o.maxOpen = 0 ∧ ∃ t ∈ out, t.sqOp.upper.list.length + t.sqOp.lower.list.length = 2 := by
  intro m
  obtain ⟨t, h1, h2⟩ := exists_of_map (x := Term.make [soTensor .hamiltonian 'H' 0 [lab .v 0] [lab .c 0]] (soOp [lab .c 0] [lab .v 0]) (1 * 1))
    (f := fun t => t.sqOp.upper.list.length + t.sqOp.lower.list.length) (b := 2) (by decide +kernel)
  refine ⟨⟨1, 0, 0, false, false, 1, true⟩, [exLeft], [t], ?_, ?_, rfl, t, by simp, h2⟩
  · refine ⟨by decide +kernel, by decide +kernel, by decide +kernel, by decide +kernel, ?_⟩
    intro u hu
    exact exFactors.density u (by simp only [List.mem_singleton] at hu; simp [hu])
  · unfold ContractRun
    simp only []
    rw [if_pos (by decide +kernel)]
    exact ⟨t, h1, rfl⟩

end Dsrg
