import Verif.Lemmas.PhysOpUnique

/-!
Existence of runs, and the totals of commutators.
-/

namespace Dsrg

/-! ### Existence of runs -/

theorem exists_forall₂ {α β : Type} {R : α → β → Prop} : ∀ {l : List α}, (∀ a ∈ l, ∃ b, R a b) → ∃ bs, List.Forall₂ R l bs := by
  intro l
  induction l with
  | nil => intro _; exact ⟨[], List.Forall₂.nil⟩
  | cons a l ih =>
    intro h
    obtain ⟨b, hb⟩ := h a (by simp)
    obtain ⟨bs, hbs⟩ := ih fun a ha => h a (by simp [ha])
    exact ⟨b :: bs, List.Forall₂.cons hb hbs⟩

theorem BatchRun.exists {m : Machine} (n : Nat) {rows : List Row} {tensors : List Tensor} {c : ℚ} (simplify : Bool) {hermitian : Bool}
    {terms : List Term} (h : OrdinaryFactors terms)
    (hrow : ∀ row ∈ rows, ∃ r, canonicalizeRow m tensors c hermitian row = .ok r ∧ OutTerm terms r) :
    ∃ out, BatchRun m n rows tensors c simplify hermitian out := by
  unfold BatchRun
  by_cases h0 : rows.length = 0
  · exact ⟨[], by rw [if_pos h0]⟩
  obtain ⟨results, hf⟩ := exists_forall₂ hrow
  have hm : rows.mapM (canonicalizeRow m tensors c hermitian) = .ok results := mapM_of_forall₂ (hf.imp fun _ _ h => h.1)
  have hp : if n = 1 then results = results else results.Perm results := by split_ifs <;> simp
  cases simplify with
  | false => exact ⟨results, by rw [if_neg h0]; exact ⟨results, results, hm, hp, by simp⟩⟩
  | true =>
    have hreg : Regular .spinOrbital results := h.regular fun r hr => by
      obtain ⟨row, -, e⟩ := forall₂_mem_right hf hr
      exact e.2
    exact ⟨_, by rw [if_neg h0]; exact ⟨results, results, hm, hp, by rw [if_pos rfl]; exact combineTerms_eq hreg⟩⟩

theorem LoopRun.exists {m : Machine} {o : Options} (n : Nat) {tensors : List Tensor} {c : ℚ} {terms : List Term} (h : OrdinaryFactors terms) :
    ∀ {batches : List (List Row)} {pending : List Row},
    (∀ row ∈ pending ++ batches.flatten, ∃ r, canonicalizeRow m tensors c o.hermitian row = .ok r ∧ OutTerm terms r) →
    ∃ out, LoopRun m o n tensors c pending batches out := by
  intro batches
  induction batches with
  | nil =>
    intro pending hrow
    exact BatchRun.exists n false h fun row hr => hrow row (by simp [hr])
  | cons b bs ih =>
    intro pending hrow
    unfold LoopRun
    rw [List.flatten_cons, ← List.append_assoc] at hrow
    by_cases hlt : (pending ++ b).length < 10000 * max 1 (n / 2)
    · obtain ⟨out, ho⟩ := ih hrow
      exact ⟨out, by rw [if_pos hlt]; exact ho⟩
    · obtain ⟨out₁, h1⟩ := BatchRun.exists n true h fun row hr => hrow row (List.mem_append.2 (Or.inl hr))
      obtain ⟨out₂, h2⟩ := ih (pending := []) fun row hr => hrow row (List.mem_append.2 (Or.inr (by simpa using hr)))
      exact ⟨out₁ ++ out₂, by rw [if_neg hlt]; exact ⟨out₁, out₂, h1, h2, rfl⟩⟩

theorem ContractRun.exists {m : Machine} {o : Options} {terms : List Term} (h : OrdinaryFactors terms) {scale : ℚ} {out : List Term}
    (hr : ContractRun m o terms scale out) (n cpus : Nat) :
    ∃ out', ContractRun { m with cpus := cpus } { o with nProcess := n } terms scale out' := by
  by_cases h2 : (productOps terms).length < 2
  · cases terms with
    | nil => exact absurd hr (by simp [ContractRun])
    | cons first rest =>
      refine ⟨out, ?_⟩
      unfold ContractRun at hr ⊢
      simp only [] at hr ⊢
      rw [if_pos h2] at hr ⊢
      exact hr
  · obtain ⟨batches, results, hb, hf, hrow, hres, -⟩ := hr.totals h h2
    cases terms with
    | nil => exact absurd hr (by simp [ContractRun])
    | cons first rest =>
    have hex : ∀ row ∈ [] ++ batches.flatten, ∃ r, canonicalizeRow { m with cpus := cpus } (productTensors (first :: rest))
        (productCoeff (first :: rest) scale) { o with nProcess := n }.hermitian row = .ok r ∧ OutTerm (first :: rest) r := by
      intro row hrw
      rw [List.nil_append] at hrw
      obtain ⟨r, hr', e⟩ := forall₂_mem_left hf hrw
      exact ⟨r, e, (hres r hr').1⟩
    obtain ⟨all, ha⟩ := LoopRun.exists (o := { o with nProcess := n }) (min n cpus) h hex
    obtain ⟨results', hf', ho'⟩ := LoopRun.spec h (pending := []) (c := productCoeff (first :: rest) scale) (fun row hrw r e => by
      rw [List.nil_append] at hrw
      obtain ⟨r', hr', e'⟩ := forall₂_mem_left hf hrw
      have : Except.ok r = Except.ok r' := e.symm.trans e'
      injection this with this
      subst this
      exact hres r hr') ha
    have hreg : Regular .spinOrbital all := by
      refine (h.regular (l := results') fun r hr => ?_).of_same ho'.same
      rw [List.nil_append] at hf'
      obtain ⟨row, hrw, e⟩ := forall₂_mem_right hf' hr
      obtain ⟨r', hr', e'⟩ := forall₂_mem_left hf hrw
      have : Except.ok r = Except.ok r' := e.symm.trans e'
      injection this with this
      subst this
      exact (hres r hr').1
    refine ⟨sortedTerms (combinedList all), ?_⟩
    unfold ContractRun
    simp only []
    rw [if_neg h2]
    exact ⟨batches, all, hb, ha, combineTerms_eq hreg⟩

/-! ### Two runs -/

/-- Options and machines that differ in the number of processes only. -/
structure SameTask (m m' : Machine) (o o' : Options) : Prop where
  canon : m'.canon = m.canon
  ord : m'.ord = m.ord
  maxCu : o'.maxCu = o.maxCu
  maxOpen : o'.maxOpen = o.maxOpen
  minOpen : o'.minOpen = o.minOpen
  forCommutator : o'.forCommutator = o.forCommutator
  expandHole : o'.expandHole = o.expandHole
  hermitian : o'.hermitian = o.hermitian

theorem SameTask.found {m m' : Machine} {o o' : Options} (h : SameTask m m' o o') (ops : List SqOp) (ts : List Tensor) :
    Found ops o ts ↔ Found ops o' ts := by
  unfold Found; rw [h.maxCu, h.maxOpen, h.minOpen, h.forCommutator]

theorem productCoeff_mul (terms : List Term) (k s : ℚ) : productCoeff terms (k * s) = k * productCoeff terms s := by
  unfold productCoeff
  induction terms generalizing s with
  | nil => rfl
  | cons t ts ih => rw [List.foldl_cons, List.foldl_cons, mul_assoc, ih]

/-- Two runs of `contract_terms` that differ in the number of processes and by a factor of the scale. -/
theorem ContractRun.compare {m m' : Machine} {o o' : Options} (ht : SameTask m m' o o') {terms : List Term} (h : OrdinaryFactors terms)
    {scale k : ℚ} (hk : |k * productCoeff terms scale| < 1 / 10 ^ 15 ↔ |productCoeff terms scale| < 1 / 10 ^ 15) {out out' : List Term}
    (h2 : ¬ (productOps terms).length < 2) (hr : ContractRun m o terms scale out) (hr' : ContractRun m' o' terms (k * scale) out') :
    ∃ results, (∀ r ∈ results, OutTerm terms r ∧ Multiple (productCoeff terms scale) r.coeff) ∧ LoopOut terms results out ∧
      LoopOut terms (results.map (Term.scale k)) out' := by
  obtain ⟨b, results, hb, hf, hrow, hres, ho⟩ := hr.totals h h2
  obtain ⟨b', results', hb', hf', hrow', hres', ho'⟩ := hr'.totals h h2
  rw [productCoeff_mul] at hf'
  have hp := results_unique h ⟨ht.canon, ht.ord⟩ (ht.found _) ht.expandHole.symm ht.hermitian.symm hk hb hb' hrow hrow' hf hf'
  refine ⟨results, hres, ho, fun t => (ho'.total t).trans (totalCoeff_perm hp t), fun x hx => ?_⟩
  obtain ⟨y, hy, e⟩ := ho'.same x hx
  exact ⟨y, hp.mem_iff.1 hy, e⟩

theorem outTerm_of_same {terms : List Term} {x y : Term} (h : OutTerm terms y) (e : x.Same y) : OutTerm terms x :=
  ⟨by rw [e.1]; exact h.tensor, by rw [e.2]; exact h.upper, by rw [e.2]; exact h.lower⟩

theorem LoopOut.outTerm {terms results out : List Term} (h : LoopOut terms results out) (hr : ∀ r ∈ results, OutTerm terms r) :
    ∀ x ∈ out, OutTerm terms x := by
  intro x hx
  obtain ⟨y, hy, e⟩ := h.same x hx
  exact outTerm_of_same (hr y hy) e

theorem outTerm_scale {terms : List Term} {k : ℚ} {l : List Term} (h : ∀ r ∈ l, OutTerm terms r) : ∀ r ∈ l.map (Term.scale k), OutTerm terms r := by
  intro r hr
  obtain ⟨y, hy, rfl⟩ := List.mem_map.1 hr
  exact outTerm_of_same (h y hy) ⟨rfl, rfl⟩

theorem OrdinaryFactors.swap {a b : Term} (h : OrdinaryFactors [a, b]) : OrdinaryFactors [b, a] where
  ops := h.ops.symm
  tensor t ht := h.tensor t (by simpa [or_comm] using ht)
  name t ht := h.name t (by simpa [or_comm] using ht)
  kind t ht x hx t' ht' := h.kind t (by simpa [or_comm] using ht) x hx t' (by simpa [or_comm] using ht')
  density t ht := h.density t (by simpa [or_comm] using ht)

theorem KindOk.mono {terms terms' : List Term} (h : ∀ t ∈ terms, t ∈ terms') {x : Tensor} (hx : KindOk terms x) : KindOk terms' x := by
  rcases hx with ⟨t, ht, hx⟩ | hx
  · exact Or.inl ⟨t, h t ht, hx⟩
  · exact Or.inr hx

theorem OutTerm.mono {terms terms' : List Term} (h : ∀ t ∈ terms, t ∈ terms') {x : Term} (hx : OutTerm terms x) : OutTerm terms' x :=
  ⟨fun y hy => ⟨((hx.tensor y hy).1).mono h, (hx.tensor y hy).2⟩, hx.upper, hx.lower⟩

theorem productOps_swap (a b : Term) : (productOps [a, b]).Perm (productOps [b, a]) := by
  unfold productOps
  exact (List.Perm.swap _ _ []).filter _

/-- With fewer than two operators that are not empty, the two products of a commutator cancel. -/
theorem CommutatorRun.trivial {m : Machine} {o : Options} {a b : Term} (h : OrdinaryFactors [a, b]) {s : ℚ} {out : List Term}
    (h2 : (productOps [a, b]).length < 2) (hr : CommutatorRun m o a b s out) : out = [] := by
  have h2' : (productOps [b, a]).length < 2 := by rw [← (productOps_swap a b).length_eq]; exact h2
  unfold CommutatorRun at hr
  split_ifs at hr with he
  · exact hr
  obtain ⟨out₁, out₂, h1, h3, hc⟩ := hr
  unfold ContractRun at h1 h3
  simp only [] at h1 h3
  rw [if_pos h2] at h1
  rw [if_pos h2'] at h3
  obtain ⟨t, ht, rfl⟩ := h1
  obtain ⟨t', ht', rfl⟩ := h3
  have hso : ∀ op ∈ [a.sqOp, b.sqOp], op.upper.ty = .spinOrbital ∧ op.lower.ty = .spinOrbital :=
    fun op hop => ⟨(h.ops.so op hop).1, (h.ops.so op hop).2.1⟩
  have hop : (productOps [b, a]).headD b.sqOp = (productOps [a, b]).headD a.sqOp := by
    have ea : a.sqOp.size = 0 → a.sqOp = ⟨⟨.spinOrbital, []⟩, ⟨.spinOrbital, []⟩⟩ := by
      intro h0
      have h1 : a.sqOp.upper.list = [] := List.length_eq_zero_iff.1 (by unfold IndicesPair.size IndicesPair.nUpper Indices.size at h0; omega)
      have h2 : a.sqOp.lower.list = [] := List.length_eq_zero_iff.1 (by unfold IndicesPair.size IndicesPair.nLower Indices.size at h0; omega)
      exact IndicesPair.ext' (Indices.ext' (hso _ (by simp)).1 h1) (Indices.ext' (hso _ (by simp)).2 h2)
    have eb : b.sqOp.size = 0 → b.sqOp = ⟨⟨.spinOrbital, []⟩, ⟨.spinOrbital, []⟩⟩ := by
      intro h0
      have h1 : b.sqOp.upper.list = [] := List.length_eq_zero_iff.1 (by unfold IndicesPair.size IndicesPair.nUpper Indices.size at h0; omega)
      have h2 : b.sqOp.lower.list = [] := List.length_eq_zero_iff.1 (by unfold IndicesPair.size IndicesPair.nLower Indices.size at h0; omega)
      exact IndicesPair.ext' (Indices.ext' (hso _ (by simp)).1 h1) (Indices.ext' (hso _ (by simp)).2 h2)
    unfold productOps at h2 ⊢
    by_cases ha : a.sqOp.size = 0 <;> by_cases hb : b.sqOp.size = 0
    · simp [ea ha, eb hb]
    · simp [ha, hb]
    · simp [ha, hb]
    · simp [ha, hb] at h2
  have hten : (productTensors [b, a]).Perm (productTensors [a, b]) := by
    unfold productTensors; simp only [List.flatMap_cons, List.flatMap_nil, List.append_nil]; exact List.perm_append_comm
  have hk : ∀ x ∈ productTensors [b, a], KindOk [a, b] x ∧ x.lower.ty = .spinOrbital := by
    intro x hx
    obtain ⟨t, ht, hx⟩ := List.mem_flatMap.1 hx
    have ht' : t ∈ [a, b] := by simpa [or_comm] using ht
    exact ⟨Or.inl ⟨t, ht', x, hx, rfl⟩, (h.tensor t ht' x hx).2⟩
  have hcf : productCoeff [b, a] (-s) = -1 * productCoeff [a, b] s := by unfold productCoeff; simp only [List.foldl_cons, List.foldl_nil]; ring
  have e := Term.make_congr hten (fun x hx y hy e => h.consistent (hk x hx).1 (hk y hy).1 e)
    (fun x hx y hy => ⟨(h.kind_ty (hk x hx).1).trans (h.kind_ty (hk y hy).1).symm, (hk x hx).2.trans (hk y hy).2.symm⟩) ht'
  rw [hop, hcf, make_scale, ht] at e
  simp only [Except.map, Except.ok.injEq] at e
  have hot : OutTerm [a, b] t := by
    obtain ⟨h1, -, -, rfl⟩ := Term.make_ok.1 ht
    have hu : ((productOps [a, b]).headD a.sqOp).upper.ty = .spinOrbital ∧ ((productOps [a, b]).headD a.sqOp).lower.ty = .spinOrbital := by
      refine hso _ ?_
      have hs : ∀ op ∈ productOps [a, b], op ∈ [a.sqOp, b.sqOp] := fun op hop => (List.mem_filter.1 hop).1
      cases hh : productOps [a, b] with
      | nil => simp
      | cons x xs => exact hs x (by rw [hh]; simp)
    refine ⟨fun x hx => ?_, hu.1, hu.2⟩
    have hx' := hk x (hten.mem_iff.2 ((sortTensors_perm _).mem_iff.1 hx))
    exact ⟨hx'.1, hx'.2.trans (h.kind_ty hx'.1).symm⟩
  have hreg : Regular .spinOrbital ([t] ++ [t']) := h.regular fun r hr => by
    rcases List.mem_append.1 hr with hr | hr <;> simp only [List.mem_singleton] at hr <;> subst hr
    · exact hot
    · rw [← e]; exact outTerm_of_same hot ⟨rfl, rfl⟩
  rw [combineTerms_eq hreg, combine_eq_nil hreg] at hc
  · injection hc with hc; exact hc.symm
  · intro u
    rw [totalCoeff_append, ← e]
    have := totalCoeff_scale (-1) [t] u
    simp only [List.map_cons, List.map_nil] at this
    rw [this]; ring

/-- What a commutator returns with two operators that are not empty. -/
theorem CommutatorRun.parts {m : Machine} {o : Options} {a b : Term} {s : ℚ} {out : List Term}
    (h2 : ¬ (productOps [a, b]).length < 2) (hr : CommutatorRun m o a b s out) :
    ∃ out₁ out₂, ContractRun m o [a, b] s out₁ ∧ ContractRun m o [b, a] (-1 * s) out₂ ∧ combineTerms (out₁ ++ out₂) = .ok out := by
  unfold CommutatorRun at hr
  have hne : ¬ (o.forCommutator = true ∧ (a.sqOp.size = 0 ∨ b.sqOp.size = 0)) := by
    rintro ⟨-, h0⟩
    apply h2
    unfold productOps
    rcases h0 with h0 | h0
    · simp only [List.map_cons, List.map_nil, List.filter_cons, h0]
      simp only [ne_eq, not_true_eq_false, decide_false, Bool.false_eq_true, if_false, List.filter_nil]
      split_ifs <;> simp
    · simp only [List.map_cons, List.map_nil, List.filter_cons, h0]
      simp only [ne_eq, not_true_eq_false, decide_false, Bool.false_eq_true, if_false, List.filter_nil]
      split_ifs <;> simp
  rw [if_neg hne] at hr
  simpa using hr

theorem productCoeff_swap (a b : Term) (s : ℚ) : productCoeff [b, a] s = productCoeff [a, b] s := by
  unfold productCoeff; simp only [List.foldl_cons, List.foldl_nil]; ring

/-- The result of a commutator from the totals of its two products. -/
theorem CommutatorRun.total {a b : Term} (h : OrdinaryFactors [a, b]) {out₁ out₂ out r₁ r₂ : List Term}
    (ho₁ : LoopOut [a, b] r₁ out₁) (ho₂ : LoopOut [b, a] r₂ out₂) (hr₁ : ∀ r ∈ r₁, OutTerm [a, b] r) (hr₂ : ∀ r ∈ r₂, OutTerm [b, a] r)
    (hc : combineTerms (out₁ ++ out₂) = .ok out) :
    Regular .spinOrbital (out₁ ++ out₂) ∧ out = sortedTerms (combinedList (out₁ ++ out₂)) ∧
      ∀ t, totalCoeff (out₁ ++ out₂) t = totalCoeff r₁ t + totalCoeff r₂ t := by
  have hreg : Regular .spinOrbital (out₁ ++ out₂) := h.regular fun r hr => by
    rcases List.mem_append.1 hr with hr | hr
    · exact ho₁.outTerm hr₁ r hr
    · exact (ho₂.outTerm hr₂ r hr).mono (by simp [or_comm])
  rw [combineTerms_eq hreg] at hc
  injection hc with hc
  exact ⟨hreg, hc.symm, fun t => by rw [totalCoeff_append, ho₁.total, ho₂.total]⟩

end Dsrg
