import Verif.Lemmas.PhysOp

/-!
Uniqueness of the results of `contract_terms` and the effect of a common factor.
-/

namespace Dsrg

/-! ### Common factors -/

/-- The term with its coefficient multiplied by `k`. -/
def Term.scale (k : ℚ) (t : Term) : Term := { t with coeff := k * t.coeff }

theorem make_scale (ts : List Tensor) (op : SqOp) (c k : ℚ) : Term.make ts op (k * c) = (Term.make ts op c).map (Term.scale k) := by
  unfold Term.make
  simp only []
  split_ifs <;> rfl

theorem simplify_scale (ord : SetOrder) (t : Term) (core removeActive : Bool) (k : ℚ) :
    (t.scale k).simplify ord core removeActive = (t.simplify ord core removeActive).map (Term.scale k) := by
  unfold Term.simplify Term.scale
  simp only [bind, Except.bind, pure, Except.pure]
  cases downgradeCumulants core t.diag ⟨id, t.nextNum, fun i => {i}⟩ t.tensors with
  | error e => rfl
  | ok cu =>
    simp only []
    cases removeDeltas t.diag ⟨cu.1.repl, cu.1.next, fun i => {i}⟩ cu.2 with
    | error e => rfl
    | ok de =>
      simp only []
      cases diagonalLoop ord (fun i => cu.1.rdiag i ∪ de.1.rdiag i) (ord.indices t.diag) (de.1.repl, de.1.next, t.indicesSet) with
      | error e => rfl
      | ok st =>
        simp only []
        cases replaceSqOp (lookupIn st.2.2 st.1) t.sqOp with
        | error e => rfl
        | ok op =>
          simp only []
          split_ifs
          · simp [Except.map]
          · cases replaceTensors (lookupIn st.2.2 st.1) de.2 with
            | error e => rfl
            | ok ts => rfl

theorem simplify_coeff {ord : SetOrder} {t s : Term} {core removeActive : Bool} (h : t.simplify ord core removeActive = .ok s) :
    s.coeff = t.coeff ∨ s.coeff = 0 := by
  unfold Term.simplify at h
  simp only [bind, Except.bind, pure, Except.pure] at h
  split at h
  · cases h
  split at h
  · cases h
  split at h
  · cases h
  split at h
  · cases h
  split_ifs at h
  · injection h with h; subst h; exact Or.inr rfl
  · split at h
    · cases h
    · injection h with h; subst h; exact Or.inl rfl

theorem sympy_scale (canon : SympyCanon) (ord : SetOrder) (t : Term) (core removeActive hermitian : Bool) {k : ℚ}
    (hk : |k * t.coeff| < 1 / 10 ^ 15 ↔ |t.coeff| < 1 / 10 ^ 15) :
    (t.scale k).canonicalizeSympy canon ord core removeActive hermitian =
      (t.canonicalizeSympy canon ord core removeActive hermitian).map (Term.scale k) := by
  unfold Term.canonicalizeSympy
  rw [simplify_scale]
  cases hs : t.simplify ord core removeActive with
  | error e => rfl
  | ok s =>
    have hc := simplify_coeff hs
    have hv : (s.scale k).isVoid = s.isVoid := by
      unfold Term.isVoid Term.scale
      simp only
      rcases hc with hc | hc <;> rw [hc]
      · exact decide_eq_decide.2 hk
      · simp
    simp only [Except.map, bind, Except.bind]
    rw [hv]
    split_ifs with h0
    · unfold Term.void
      have := make_scale [] s.sqOp.void 0 k
      rw [mul_zero] at this
      refine Eq.trans this ?_
      cases Term.make [] s.sqOp.void 0 <;> rfl
    · have e1 : (s.scale k).minimalIndices = s.minimalIndices := rfl
      have e2 : (s.scale k).tensors = s.tensors := rfl
      have e3 : (s.scale k).sqOp = s.sqOp := rfl
      have e4 : (s.scale k).coeff = k * s.coeff := rfl
      rw [e1, e2, e3, e4]
      cases slotNames (dictFind s.minimalIndices) (fun m => 2 * (sortedDummies s.minimalIndices).idxOf m) (slotLabels s.tensors s.sqOp) with
      | error e => rfl
      | ok names =>
        simp only []
        cases bsgsList s.tensors s.sqOp hermitian with
        | error e => rfl
        | ok v =>
          simp only []
          split_ifs
          · cases canon (names ++ [names.length, names.length + 1]) (dummyRanges 0 (spaceGroups (sortedDummies s.minimalIndices))) v with
            | none => rfl
            | some gc =>
              simp only []
              cases rebuildOp (sortedDummies s.minimalIndices) s.sqOp gc with
              | error e => rfl
              | ok op =>
                simp only []
                cases rebuildTensors (sortedDummies s.minimalIndices) s.tensors (gc.drop s.sqOp.size) with
                | error e => rfl
                | ok ts =>
                  simp only []
                  rw [mul_left_comm]
                  exact make_scale _ _ _ _
          · rfl

theorem canonicalizeRow_scale (m : Machine) (tensors : List Tensor) (c : ℚ) (hermitian : Bool) (row : Row) {k : ℚ} (hs : row.1 = 1 ∨ row.1 = -1)
    (hk : |k * c| < 1 / 10 ^ 15 ↔ |c| < 1 / 10 ^ 15) :
    canonicalizeRow m tensors (k * c) hermitian row = (canonicalizeRow m tensors c hermitian row).map (Term.scale k) := by
  unfold canonicalizeRow
  simp only [bind, Except.bind]
  rw [mul_left_comm, make_scale]
  cases ht : Term.make (tensors ++ row.2.1) row.2.2 (row.1 * c) with
  | error e => rfl
  | ok t =>
    simp only [Except.map]
    obtain ⟨-, -, -, rfl⟩ := Term.make_ok.1 ht
    refine sympy_scale _ _ _ _ _ _ ?_
    simp only
    rcases hs with h | h <;> rw [h] <;> simpa using hk

theorem totalCoeff_scale (k : ℚ) (l : List Term) (t : Term) : totalCoeff (l.map (Term.scale k)) t = k * totalCoeff l t := by
  unfold totalCoeff
  have : (l.map (Term.scale k)).filter (fun t' => decide (t'.Same t)) = (l.filter fun t' => decide (t'.Same t)).map (Term.scale k) := by
    rw [List.filter_map]; rfl
  rw [this, List.map_map]
  induction l.filter fun t' => decide (t'.Same t) with
  | nil => simp
  | cons a l ih => simp only [List.map_cons, List.sum_cons, ih, mul_add, Function.comp]; rfl

/-- Combination of lists whose totals differ by a factor. -/
theorem combine_visible_scale {ty : IType} {all all' : List Term} (h : Regular ty all) (h' : Regular ty all') {k : ℚ} (hk : k ≠ 0)
    (ht : ∀ t, totalCoeff all' t = k * totalCoeff all t) (hn : ∀ t, 1 / 10 ^ 15 ≤ |k * totalCoeff all t| ↔ 1 / 10 ^ 15 ≤ |totalCoeff all t|) :
    (sortedTerms (combinedList all')).map Term.visible =
      (sortedTerms (combinedList all)).map fun t => (k * t.coeff, t.tensors, t.sqOp) := by
  have hmap : ((sortedTerms (combinedList all)).map fun t => (k * t.coeff, t.tensors, t.sqOp)) =
      ((sortedTerms (combinedList all)).map (Term.scale k)).map Term.visible := by
    rw [List.map_map]; rfl
  rw [hmap]
  refine visible_unique (combine_sorted h') ?_ ?_
  · rw [List.pairwise_map]
    refine ((combine_sorted h).and (combine_notSame h)).imp_of_mem ?_
    intro x y hx hy ⟨hlt, hns⟩
    have hreg := h.combine
    have hne : ¬ (x.sqOp.cmpKey = y.sqOp.cmpKey ∧ x.tensors.map Tensor.cmpKey = y.tensors.map Tensor.cmpKey) :=
      fun e => hns (hreg.same_of_key hx hy e.1 e.2)
    unfold Term.ltCore Term.scale at *
    simp only at hlt ⊢
    by_cases h1 : x.sqOp.eqCore y.sqOp = true
    · rw [if_pos h1] at hlt ⊢
      by_cases h2 : x.tensors.length = y.tensors.length
      · rw [if_pos h2] at hlt ⊢
        by_cases h3 : tensorsEq x.tensors y.tensors = true
        · refine absurd ⟨?_, ?_⟩ hne
          · rw [IndicesPair.eqCore_eq] at h1; simpa using h1
          · rw [tensorsEq_eq] at h3; simpa using h3
        · rw [if_neg h3] at hlt ⊢; exact hlt
      · rw [if_neg h2] at hlt ⊢; exact hlt
    · rw [if_neg h1] at hlt ⊢; exact hlt
  · rintro ⟨c, ts, op⟩
    rw [mem_combine_iff h']
    constructor
    · rintro ⟨t, a, b, e, d⟩
      simp only at a b e d
      rw [ht] at e
      obtain ⟨x, hx, hv⟩ := (mem_combine_iff h (totalCoeff all t, t.tensors, t.sqOp)).2 ⟨t, rfl, rfl, rfl, by
        simp only; rw [← hn, ← e]; exact d⟩
      refine ⟨x.scale k, List.mem_map.2 ⟨x, hx, rfl⟩, ?_⟩
      simp only [Term.visible, Prod.mk.injEq] at hv
      simp only [Term.visible, Term.scale, hv.1, hv.2.1, hv.2.2, a, b, e]
    · rintro ⟨x, hx, hv⟩
      obtain ⟨y, hy, rfl⟩ := List.mem_map.1 hx
      obtain ⟨t, a, b, e, d⟩ := (mem_combine_iff h y.visible).1 ⟨y, hy, rfl⟩
      simp only [Term.visible, Term.scale, Prod.mk.injEq] at hv a b e d
      refine ⟨t, by simp only; rw [a, hv.2.1], by simp only; rw [b, hv.2.2], ?_, ?_⟩
      · simp only; rw [ht, ← e, hv.1]
      · simp only; rw [← hv.1, e, hn, ← e]; exact d

theorem combine_eq_nil {ty : IType} {l : List Term} (h : Regular ty l) (h0 : ∀ t, totalCoeff l t = 0) : sortedTerms (combinedList l) = [] := by
  rw [List.eq_nil_iff_forall_not_mem]
  intro x hx
  obtain ⟨t, -, -, e, d⟩ := (mem_combine_iff h x.visible).1 ⟨x, hx, rfl⟩
  rw [e, h0] at d
  norm_num at d

/-! ### Uniqueness -/

open Classical in
/-- The canonicalized term of a row whose factors are densities. -/
noncomputable def rowResult (m : Machine) (tensors : List Tensor) (c : ℚ) (hermitian : Bool) (row : Row) : Option Term :=
  if ∀ d ∈ row.2.1, IsDensity d then (canonicalizeRow m tensors c hermitian row).toOption else none

theorem rowResult_eq {m : Machine} {tensors : List Tensor} {c : ℚ} {hermitian : Bool} {row : Row} (hd : ∀ d ∈ row.2.1, IsDensity d) {r : Term}
    (h : canonicalizeRow m tensors c hermitian row = .ok r) : rowResult m tensors c hermitian row = some r := by
  unfold rowResult; rw [if_pos hd, h]; rfl

theorem rowFn_rowResult {terms : List Term} (h : OrdinaryFactors terms) (m : Machine) (c : ℚ) (hermitian : Bool) :
    RowFn (rowResult m (productTensors terms) c hermitian) := by
  have key : ∀ s op (d d' : List Tensor), d.Perm d' → (∀ x ∈ d, IsDensity x) → ∀ r,
      canonicalizeRow m (productTensors terms) c hermitian (s, d, op) = .ok r →
      canonicalizeRow m (productTensors terms) c hermitian (s, d', op) = .ok r := by
    intro s op d d' hp hd r hr
    unfold canonicalizeRow at hr ⊢
    simp only [bind, Except.bind] at hr ⊢
    cases ht : Term.make (productTensors terms ++ d) op (s * c) with
    | error e => rw [ht] at hr; simp at hr
    | ok t =>
      have hk : ∀ x ∈ productTensors terms ++ d, KindOk terms x ∧ x.lower.ty = .spinOrbital := by
        intro x hx
        rcases List.mem_append.1 hx with hx | hx
        · obtain ⟨t, ht, hx⟩ := List.mem_flatMap.1 hx
          exact ⟨Or.inl ⟨t, ht, x, hx, rfl⟩, (h.tensor t ht x hx).2⟩
        · exact ⟨Or.inr ⟨x, hd x hx, rfl⟩, (hd x hx).lower⟩
      rw [Term.make_congr (hp.append_left _) (fun x hx y hy e => h.consistent (hk x hx).1 (hk y hy).1 e)
        (fun x hx y hy => ⟨(h.kind_ty (hk x hx).1).trans (h.kind_ty (hk y hy).1).symm, (hk x hx).2.trans (hk y hy).2.symm⟩) ht]
      rw [ht] at hr
      exact hr
  intro s op d d' hp
  unfold rowResult
  by_cases hd : ∀ x ∈ d, IsDensity x
  · have hd' : ∀ x ∈ d', IsDensity x := fun x hx => hd x (hp.mem_iff.2 hx)
    rw [if_pos hd, if_pos hd']
    cases h1 : canonicalizeRow m (productTensors terms) c hermitian (s, d, op) with
    | ok r => rw [key s op d d' hp hd r h1]
    | error e =>
      cases h2 : canonicalizeRow m (productTensors terms) c hermitian (s, d', op) with
      | ok r => rw [key s op d' d hp.symm hd' r h2] at h1; cases h1
      | error e => rfl
  · have hd' : ¬ ∀ x ∈ d', IsDensity x := fun h => hd fun x hx => h x (hp.mem_iff.1 hx)
    rw [if_neg hd, if_neg hd']

theorem map_rowResult {m : Machine} {tensors : List Tensor} {c : ℚ} {hermitian : Bool} {rows : List Row} {results : List Term}
    (hf : List.Forall₂ (fun row r => canonicalizeRow m tensors c hermitian row = .ok r) rows results)
    (hd : ∀ row ∈ rows, ∀ d ∈ row.2.1, IsDensity d) : rows.map (rowResult m tensors c hermitian) = results.map some := by
  induction hf with
  | nil => rfl
  | cons h1 _ ih => rw [List.map_cons, List.map_cons, rowResult_eq (hd _ (by simp)) h1, ih fun row hr => hd row (by simp [hr])]

theorem perm_of_map_some {α : Type} {l l' : List α} (h : (l.map some).Perm (l'.map some)) : l.Perm l' := by
  have := h.filterMap id
  simpa [List.filterMap_map, Function.comp_def] using this

theorem forall₂_scale {m : Machine} {tensors : List Tensor} {c k : ℚ} {hermitian : Bool} {rows : List Row} {results : List Term}
    (hk : |k * c| < 1 / 10 ^ 15 ↔ |c| < 1 / 10 ^ 15) (hs : ∀ row ∈ rows, row.1 = 1 ∨ row.1 = -1)
    (hf : List.Forall₂ (fun row r => canonicalizeRow m tensors c hermitian row = .ok r) rows results) :
    List.Forall₂ (fun row r => canonicalizeRow m tensors (k * c) hermitian row = .ok r) rows (results.map (Term.scale k)) := by
  induction hf with
  | nil => exact List.Forall₂.nil
  | cons h1 _ ih =>
    refine List.Forall₂.cons ?_ (ih fun row hr => hs row (by simp [hr]))
    rw [canonicalizeRow_scale m tensors c hermitian _ (hs _ (by simp)) hk, h1]; rfl

/-- Everything that is used of a call with at least two operators. -/
theorem ContractRun.totals {m : Machine} {o : Options} {terms : List Term} (h : OrdinaryFactors terms) {scale : ℚ} {out : List Term}
    (h2 : ¬ (productOps terms).length < 2) (hr : ContractRun m o terms scale out) :
    ∃ batches results, ContractionsRun (productOps terms) o batches ∧
      List.Forall₂ (fun row r => canonicalizeRow m (productTensors terms) (productCoeff terms scale) o.hermitian row = .ok r) batches.flatten results ∧
      (∀ row ∈ batches.flatten, (∀ d ∈ row.2.1, IsDensity d) ∧ (row.1 = 1 ∨ row.1 = -1)) ∧
      (∀ r ∈ results, OutTerm terms r ∧ Multiple (productCoeff terms scale) r.coeff) ∧ LoopOut terms results out := by
  obtain ⟨batches, results, all, hb, hf, hrows, hres, -, ho, hreg, rfl⟩ := hr.spec h h2
  refine ⟨batches, results, hb, hf, ?_, hres, ?_, ?_⟩
  · intro row hrow
    obtain ⟨h1, c, -, hrc⟩ := hrows row hrow
    refine ⟨h1, ?_⟩
    unfold resultRows at hrc
    obtain ⟨e, he, rfl⟩ := List.mem_map.1 hrc
    have he1 : e.1 = 1 ∨ e.1 = -1 := by
      split_ifs at he
      · exact (expandHoleDensities_labels c e he).1
      · simp only [List.mem_singleton] at he; subst he; exact Or.inl rfl
    have hrs : relSign (baseOrder (productOps terms)) (arranged (productOps terms) c) = 1 ∨
        relSign (baseOrder (productOps terms)) (arranged (productOps terms) c) = -1 := signPow_eq _
    rcases hrs with h1 | h1 <;> rcases he1 with h2 | h2 <;> simp [h1, h2]
  · intro t
    rw [totalCoeff_combine hreg]
    split
    · exact ho.total t
    · next hn =>
      rw [← ho.total]
      by_contra hne
      refine (Multiple.totalCoeff (fun r hr => (hres r hr).2) t).not_negligible ?_
      rw [← ho.total]
      exact ⟨Ne.symm hne, not_le.1 hn⟩
  · intro x hx
    obtain ⟨y, hy, e⟩ := mem_combine_same hreg hx
    obtain ⟨z, hz, e'⟩ := ho.same y hy
    exact ⟨z, hz, e.1.trans e'.1, e.2.trans e'.2⟩

theorem results_unique {m m' : Machine} {o o' : Options} {terms : List Term} (h : OrdinaryFactors terms) (hm : m'.canon = m.canon ∧ m'.ord = m.ord)
    (ho : ∀ ts, Found (productOps terms) o ts ↔ Found (productOps terms) o' ts) (hx : o.expandHole = o'.expandHole)
    (hh : o.hermitian = o'.hermitian) {c k : ℚ} (hk : |k * c| < 1 / 10 ^ 15 ↔ |c| < 1 / 10 ^ 15)
    {b b' : List (List Row)} {results results' : List Term} (hb : ContractionsRun (productOps terms) o b)
    (hb' : ContractionsRun (productOps terms) o' b')
    (hrow : ∀ row ∈ b.flatten, (∀ d ∈ row.2.1, IsDensity d) ∧ (row.1 = 1 ∨ row.1 = -1))
    (hrow' : ∀ row ∈ b'.flatten, (∀ d ∈ row.2.1, IsDensity d) ∧ (row.1 = 1 ∨ row.1 = -1))
    (hf : List.Forall₂ (fun row r => canonicalizeRow m (productTensors terms) c o.hermitian row = .ok r) b.flatten results)
    (hf' : List.Forall₂ (fun row r => canonicalizeRow m' (productTensors terms) (k * c) o'.hermitian row = .ok r) b'.flatten results') :
    results'.Perm (results.map (Term.scale k)) := by
  have e : ∀ row, canonicalizeRow m' (productTensors terms) (k * c) o'.hermitian row = canonicalizeRow m (productTensors terms) (k * c) o.hermitian row := by
    intro row
    unfold canonicalizeRow; rw [hm.1, hm.2, hh]
  simp only [e] at hf'
  have h1 := map_rowResult (forall₂_scale hk (fun row hr => (hrow row hr).2) hf) fun row hr => (hrow row hr).1
  have h2 := map_rowResult hf' fun row hr => (hrow' row hr).1
  refine perm_of_map_some ?_
  rw [← h1, ← h2]
  exact (contractions_unique (rowFn_rowResult h m (k * c) o.hermitian) (goodOps_productOps h.ops) ho hx hb hb').symm

theorem one_close (c : ℚ) : |1 * c| < 1 / 10 ^ 15 ↔ |c| < 1 / 10 ^ 15 := by rw [one_mul]

theorem neg_close (c : ℚ) : |(-1) * c| < 1 / 10 ^ 15 ↔ |c| < 1 / 10 ^ 15 := by rw [neg_one_mul, abs_neg]

theorem scale_one (l : List Term) : l.map (Term.scale 1) = l := by
  conv_rhs => rw [← List.map_id l]
  refine List.map_congr_left fun t _ => ?_
  simp [Term.scale]

end Dsrg
