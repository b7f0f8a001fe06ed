import Verif.Lemmas.Combine
import Verif.Lemmas.TermMake
import Verif.Spec.Toy

/-!
Properties of the comparison, hashing and combination of terms.
-/

namespace Dsrg

/-! ### C48 hash_term identifies terms up to the coefficient -/

/-- Terms with ordinary tensor names have the same hash exactly when their tensors (names and labels) and operators are the same. -/
theorem C48_hash (t t' : Term) (h : ∀ x ∈ t.tensors ++ t'.tensors, '^' ∉ x.name ∧ ' ' ∉ x.name) :
    t.hashTerm = t'.hashTerm ↔
      t.tensors.map (fun x => (x.name, x.upper.list, x.lower.list)) = t'.tensors.map (fun x => (x.name, x.upper.list, x.lower.list)) ∧
      t.sqOp.upper.list = t'.sqOp.upper.list ∧ t.sqOp.lower.list = t'.sqOp.lower.list :=
  ⟨Term.hashTerm_cancel (fun x hx => h x (by simp [hx])) fun x hx => h x (by simp [hx]), fun e => Term.hashTerm_congr e.1 e.2.1 e.2.2⟩

/-- The hash of `H^{g10,c0}_{g1,a2}`-like terms. -/
example : (Term.make [soTensor .hamiltonian 'H' 0 [lab .g 10] [lab .c 0]] (soOp [lab .c 0] [lab .g 10]) 1).map Term.hashTerm =
    .ok "H^{ g_{10} }_{ c_{0} } a^{ c_{0} }_{ g_{10} }".toList := by decide +kernel

/-! ### C49 combine_terms adds the coefficients of equal terms -/

/-- `combine_terms` returns, in increasing order, exactly one term for every distinct term of the input whose coefficients do not
add up to (numerically) zero, with the sum of their coefficients. -/
theorem C49_combine (ty : IType) (terms : List Term) (h : Regular ty terms) : ∃ out, combineTerms terms = .ok out ∧
    out.Pairwise (fun x y => x.pyLt y = .ok true) ∧ out.Pairwise (fun x y => ¬ x.Same y) ∧
    ∀ c ts op, (c, ts, op) ∈ out.map Term.visible ↔
      ∃ t ∈ terms, t.tensors = ts ∧ t.sqOp = op ∧ c = totalCoeff terms t ∧ 1 / 10 ^ 15 ≤ |c| := by
  refine ⟨_, combineTerms_eq h, ?_, combine_notSame h, ?_⟩
  · refine (combine_sorted h).imp_of_mem ?_
    intro x y hx hy hxy
    have e : x.sqOp.upper.ty = y.sqOp.upper.ty := ((h.combine.op x hx).1).trans ((h.combine.op y hy).1).symm
    simp [Term.pyLt, Term.checkOperand, IndicesPair.checkOperand, e, hxy, bind, Except.bind, pure, Except.pure]
  · intro c ts op
    rw [List.mem_map]
    simp only [(sortedTerms_perm (combinedList terms)).mem_iff]
    exact (combinedList_spec h).1 c ts op

section
variable {O R M : Type} [Fintype O] [DecidableEq O] [Inhabited O] [CommRing R] [Algebra ℚ R] [AddCommGroup M] [Module R M]

/-- The sum of the values is preserved, unless a total coefficient is not zero but below the threshold. -/
theorem C49_value (ty : IType) (terms : List Term) (h : Regular ty terms) (hn : ∀ t ∈ terms, ¬ Negligible (totalCoeff terms t))
    (out : List Term) (ho : combineTerms terms = .ok out) (orb : Orbitals O) (I : Interp O R M) :
    (out.map fun t => I.value orb t.coeff t.tensors t.sqOp).sum = (terms.map fun t => I.value orb t.coeff t.tensors t.sqOp).sum := by
  rw [combineTerms_eq h] at ho
  injection ho with ho
  subst ho
  letI : Module ℚ M := Module.compHom M (algebraMap ℚ R)
  have hv : ∀ (c : ℚ) ts op, I.value orb c ts op = c • I.value orb 1 ts op := by
    intro c ts op
    show I.value orb c ts op = (algebraMap ℚ R c) • I.value orb 1 ts op
    simp [Interp.value]
  have hmap : ∀ l : List Term, (l.map fun t => I.value orb t.coeff t.tensors t.sqOp) =
      l.map fun t => t.coeff • (fun s : List Tensor × SqOp => I.value orb 1 s.1 s.2) (t.tensors, t.sqOp) := by
    intro l; exact List.map_congr_left fun t _ => hv _ _ _
  have htot : ∀ (l : List Term) (s : List Tensor × SqOp), ((l.filter fun t' => (t'.tensors, t'.sqOp) = s).map Term.coeff).sum =
      totalCoeff l ⟨0, s.2, s.1, ∅, fun _ => 0, ∅⟩ := by
    intro l s
    unfold totalCoeff
    congr 2
    refine List.filter_congr fun x _ => ?_
    rw [decide_eq_decide]
    unfold Term.Same
    cases s; simp
  rw [hmap, hmap, sum_terms_eq (fun s : List Tensor × SqOp => I.value orb 1 s.1 s.2) ((terms.map fun t => (t.tensors, t.sqOp)).toFinset) terms
      (by intro t ht; rw [List.mem_toFinset]; exact List.mem_map.2 ⟨t, ht, rfl⟩),
    sum_terms_eq (fun s : List Tensor × SqOp => I.value orb 1 s.1 s.2) ((terms.map fun t => (t.tensors, t.sqOp)).toFinset) (sortedTerms (combinedList terms)) ?_]
  · refine Finset.sum_congr rfl fun s hs => ?_
    rw [htot, htot, totalCoeff_combine h]
    obtain ⟨t, ht, rfl⟩ := List.mem_map.1 (List.mem_toFinset.1 hs)
    have e : totalCoeff terms ⟨0, t.sqOp, t.tensors, ∅, fun _ => 0, ∅⟩ = totalCoeff terms t := totalCoeff_congr ⟨rfl, rfl⟩
    simp only [e]
    split
    · rfl
    · next hc =>
      have h0 : totalCoeff terms t = 0 := by
        by_contra h0
        exact hn t ht ⟨h0, not_le.1 hc⟩
      rw [h0]
  · intro t ht
    obtain ⟨t', ht', e⟩ := mem_combine_same h ht
    rw [List.mem_toFinset]
    exact List.mem_map.2 ⟨t', ht', by rw [e.1, e.2]⟩

end

/-! ### C50 the result does not depend on the order of the intermediate results -/

/-- Any order of the terms gives the same list. -/
theorem C50_order (ty : IType) (terms terms' : List Term) (h : Regular ty terms) (hp : terms.Perm terms') : ∃ out out',
    combineTerms terms = .ok out ∧ combineTerms terms' = .ok out' ∧ out.map Term.visible = out'.map Term.visible := by
  have h' : Regular ty terms' := h.subset fun x hx => hp.mem_iff.2 hx
  exact ⟨_, _, combineTerms_eq h, combineTerms_eq h', combine_visible_of_total h h' fun t => totalCoeff_perm hp t⟩

/-! ### C51 batching does not change the result -/

/-- Combining batches first, then the results with the remaining terms, is combining everything at once, when no total of a batch is
not zero but below the threshold. -/
theorem C51_batches (ty : IType) (batches : List (List Term)) (rest : List Term) (h : Regular ty (batches.flatten ++ rest))
    (hn : ∀ b ∈ batches, ∀ t ∈ b, ¬ Negligible (totalCoeff b t)) :
    ∃ combined out out', batches.mapM combineTerms = .ok combined ∧ combineTerms (combined.flatten ++ rest) = .ok out ∧
      combineTerms (batches.flatten ++ rest) = .ok out' ∧ out.map Term.visible = out'.map Term.visible := by
  have hb : ∀ b ∈ batches, Regular ty b := fun b hb => h.subset fun x hx => by
    rw [List.mem_append, List.mem_flatten]; exact Or.inl ⟨b, hb, hx⟩
  have hm : batches.mapM combineTerms = .ok (batches.map fun b => sortedTerms (combinedList b)) := by
    clear h hn
    induction batches with
    | nil => rfl
    | cons b bs ih =>
      rw [List.mapM_cons, combineTerms_eq (hb b (by simp)), ih fun b' hb' => hb b' (by simp [hb'])]
      rfl
  have htot : ∀ t, totalCoeff ((batches.map fun b => sortedTerms (combinedList b)).flatten ++ rest) t = totalCoeff (batches.flatten ++ rest) t := by
    intro t
    rw [totalCoeff_append, totalCoeff_append]
    congr 1
    clear h hm
    induction batches with
    | nil => rfl
    | cons b bs ih =>
      rw [List.map_cons, List.flatten_cons, List.flatten_cons, totalCoeff_append, totalCoeff_append,
        ih (fun b' hb' => hn b' (by simp [hb'])) fun b' hb' => hb b' (by simp [hb']), totalCoeff_combine (hb b (by simp))]
      congr 1
      split
      · rfl
      · next hc =>
        by_contra hne
        obtain ⟨t', ht', hs⟩ := exists_of_totalCoeff_ne (Ne.symm hne)
        apply hn b (by simp) t' ht'
        rw [totalCoeff_congr hs]
        exact ⟨Ne.symm hne, not_le.1 hc⟩
  have h' : Regular ty ((batches.map fun b => sortedTerms (combinedList b)).flatten ++ rest) := by
    refine h.of_same fun x hx => ?_
    rcases List.mem_append.1 hx with hx | hx
    · obtain ⟨l, hl, hx⟩ := List.mem_flatten.1 hx
      obtain ⟨b, hb', rfl⟩ := List.mem_map.1 hl
      obtain ⟨t, ht, e⟩ := mem_combine_same (hb b hb') hx
      exact ⟨t, by rw [List.mem_append, List.mem_flatten]; exact Or.inl ⟨b, hb', ht⟩, e⟩
    · exact ⟨x, by simp [hx], rfl, rfl⟩
  exact ⟨_, _, _, hm, combineTerms_eq h', combineTerms_eq h, combine_visible_of_total h' h htot⟩

/-- The condition on the totals is needed: two batches of one term with coefficient 6e-16 are dropped, together they are kept. -/
theorem C51_condition_needed : ∃ ty t, Regular ty [t, t] ∧ (combineTerms [t]).map (List.map Term.coeff) = .ok [] ∧
    (combineTerms [t, t]).map (List.map Term.coeff) = .ok [12 / 10 ^ 16] :=
  ⟨.spinOrbital, ⟨6 / 10 ^ 16, soOp [lab .g 1] [lab .g 0], [soTensor .hamiltonian 'H' 0 [lab .g 0] [lab .g 1]], {lab .g 0, lab .g 1}, fun _ => 2, ∅⟩,
    ⟨by decide, by decide, by decide, by decide⟩, by decide +kernel, by decide +kernel⟩

/-! ### C52 idempotence, and the overwritten inputs -/

/-- Combining a combined list returns it unchanged. -/
theorem C52_idempotent_partial (ty : IType) (terms : List Term) (h : Regular ty terms) : ∃ out out',
    combineTerms terms = .ok out ∧ combineTerms out = .ok out' ∧ out'.map Term.visible = out.map Term.visible := by
  refine ⟨_, _, combineTerms_eq h, combineTerms_eq h.combine, ?_⟩
  refine visible_unique (combine_sorted h.combine) (combine_sorted h) fun v => ?_
  rw [mem_combine_iff h.combine, mem_combine_iff h]
  have e : ∀ t : Term, (v.1 = totalCoeff (sortedTerms (combinedList terms)) t ∧ 1 / 10 ^ 15 ≤ |v.1|) ↔
      (v.1 = totalCoeff terms t ∧ 1 / 10 ^ 15 ≤ |v.1|) := by
    intro t
    rw [totalCoeff_combine h]
    split
    · rfl
    · next hc =>
      constructor
      · rintro ⟨a, b⟩; rw [a, abs_zero] at b; exact absurd b (by norm_num)
      · rintro ⟨a, b⟩; rw [a] at b; exact absurd b hc
  simp only [e]

/-- Two copies of `H^{g0}_{g1} a^{g1}_{g0}`. -/
def twoCopies : List Term :=
  let t : Term := ⟨1, soOp [lab .g 1] [lab .g 0], [soTensor .hamiltonian 'H' 0 [lab .g 0] [lab .g 1]], {lab .g 0, lab .g 1}, fun _ => 2, ∅⟩
  [t, t]

theorem twoCopies_regular : Regular .spinOrbital twoCopies := ⟨by decide, by decide, by decide, by decide⟩

/-- A second call on the same list gives another result: the coefficients of the input terms have been overwritten. -/
theorem C52_violation_second_call : ∃ ty terms, Regular ty terms ∧
    (combineTerms terms).map (List.map Term.coeff) = .ok [2] ∧ (combineTerms (combineOverwrites terms)).map (List.map Term.coeff) = .ok [3] :=
  ⟨.spinOrbital, twoCopies, twoCopies_regular, by decide +kernel, by decide +kernel⟩

/-- The theorems above apply to this list. -/
example : Regular .spinOrbital ([twoCopies, twoCopies].flatten ++ twoCopies) ∧
    ∀ b ∈ [twoCopies, twoCopies], ∀ t ∈ b, ¬ Negligible (totalCoeff b t) :=
  ⟨twoCopies_regular.subset (by intro x hx; simpa [twoCopies] using hx), by
    rintro b hb t ht ⟨-, hn⟩
    have hb' : b = twoCopies := by simpa using hb
    subst hb'
    have : totalCoeff twoCopies t = 2 := by
      have ht' : t = twoCopies.head (by decide) := by simpa [twoCopies] using ht
      rw [ht']; decide +kernel
    rw [this] at hn
    exact absurd hn (by norm_num)⟩

/-! ### C65 comparison of terms -/

/-- `<`, `<=`, `>`, `>=` are a total order on terms with labels of one class, in which terms with the same operator, tensors and
coefficient are level; other terms raise `TypeError`. -/
theorem C65_order_partial (x y z : Term) (hxy : x.sqOp.upper.ty = y.sqOp.upper.ty) (hyz : y.sqOp.upper.ty = z.sqOp.upper.ty) :
    (x.pyLt y = .ok true ∨ (x.pyLt y = .ok false ∧ y.pyLt x = .ok false) ∨ y.pyLt x = .ok true) ∧
    ¬ (x.pyLt y = .ok true ∧ y.pyLt x = .ok true) ∧
    (x.pyLt y = .ok false ∧ y.pyLt x = .ok false ↔ x.coeff = y.coeff ∧
      x.sqOp.upper.list = y.sqOp.upper.list ∧ x.sqOp.lower.list = y.sqOp.lower.list ∧
      x.tensors.map (fun t => (t.priority, t.name, t.upper.list, t.lower.list)) =
        y.tensors.map (fun t => (t.priority, t.name, t.upper.list, t.lower.list))) ∧
    (x.pyLt y = .ok true → y.pyLt z = .ok true → x.pyLt z = .ok true) ∧
    x.pyGt y = y.pyLt x ∧ (∃ b, y.pyLt x = .ok b ∧ x.pyLe y = .ok (!b)) ∧ ∃ b, x.pyLt y = .ok b ∧ x.pyGe y = .ok (!b) := by
  have hlt : ∀ a b : Term, a.sqOp.upper.ty = b.sqOp.upper.ty → a.pyLt b = .ok (termKeyLt a.cmpKey b.cmpKey) := by
    intro a b h
    simp [Term.pyLt, Term.checkOperand, IndicesPair.checkOperand, h, bind, Except.bind, pure, Except.pure, Term.ltCore_eq]
  have hle : ∀ a b : Term, a.sqOp.upper.ty = b.sqOp.upper.ty → a.pyLe b = .ok (termKeyLe a.cmpKey b.cmpKey) := by
    intro a b h
    simp [Term.pyLe, Term.checkOperand, IndicesPair.checkOperand, h, bind, Except.bind, pure, Except.pure, Term.leCore_eq]
  have hkey : x.cmpKey = y.cmpKey ↔ x.coeff = y.coeff ∧
      x.sqOp.upper.list = y.sqOp.upper.list ∧ x.sqOp.lower.list = y.sqOp.lower.list ∧
      x.tensors.map (fun t => (t.priority, t.name, t.upper.list, t.lower.list)) =
        y.tensors.map (fun t => (t.priority, t.name, t.upper.list, t.lower.list)) := by
    rw [Term.cmpKey_eq_iff, IndicesPair.cmpKey_eq_iff]
    have : ∀ l l' : List Tensor, l.map Tensor.cmpKey = l'.map Tensor.cmpKey ↔
        l.map (fun t => (t.priority, t.name, t.upper.list, t.lower.list)) = l'.map (fun t => (t.priority, t.name, t.upper.list, t.lower.list)) := by
      intro l
      induction l with
      | nil => intro l'; cases l' <;> simp
      | cons a l ih =>
        intro l'
        cases l' with
        | nil => simp
        | cons b l' => simp only [List.map_cons, List.cons.injEq, ih, Tensor.cmpKey_eq_iff, Prod.mk.injEq]
    rw [this]
    tauto
  have hgt : x.pyGt y = y.pyLt x := by
    simp [Term.pyLt, Term.pyGt, Term.checkOperand, IndicesPair.checkOperand, hxy, bind, Except.bind, pure, Except.pure]
  have hge : x.pyGe y = y.pyLe x := by
    simp [Term.pyLe, Term.pyGe, Term.checkOperand, IndicesPair.checkOperand, hxy, bind, Except.bind, pure, Except.pure]
  have T := term_totLt
  rw [hgt, hge, ← hkey, hlt _ _ hxy, hlt _ _ hxy.symm, hlt _ _ hyz, hlt _ _ (hxy.trans hyz), hle _ _ hxy, hle _ _ hxy.symm]
  refine ⟨?_, ?_, ?_, ?_, rfl, ⟨_, rfl, by rw [T.le_eq]⟩, ⟨_, rfl, by rw [T.le_eq]⟩⟩
  · rcases T.tri x.cmpKey y.cmpKey with h | h | h
    · exact Or.inl (by rw [h])
    · exact Or.inr (Or.inl (by rw [h, T.irrefl]; exact ⟨rfl, rfl⟩))
    · exact Or.inr (Or.inr (by rw [h]))
  · rintro ⟨h1, h2⟩
    simp only [Except.ok.injEq] at h1 h2
    have := T.trans _ _ _ h1 h2
    rw [T.irrefl] at this
    exact absurd this (by decide)
  · constructor
    · rintro ⟨h1, h2⟩
      simp only [Except.ok.injEq] at h1 h2
      rcases T.tri x.cmpKey y.cmpKey with h | h | h
      · rw [h] at h1; exact absurd h1 (by decide)
      · exact h
      · rw [h] at h2; exact absurd h2 (by decide)
    · intro h; rw [h, T.irrefl]; exact ⟨rfl, rfl⟩
  · intro h1 h2
    simp only [Except.ok.injEq] at h1 h2
    rw [T.trans _ _ _ h1 h2]

theorem tensorKeys_iff : ∀ l l' : List Tensor, l.map Tensor.cmpKey = l'.map Tensor.cmpKey ↔
    l.map (fun t => (t.priority, t.name, t.upper.list, t.lower.list)) = l'.map (fun t => (t.priority, t.name, t.upper.list, t.lower.list)) := by
  intro l
  induction l with
  | nil => intro l'; cases l' <;> simp
  | cons a l ih =>
    intro l'
    cases l' with
    | nil => simp
    | cons b l' => simp only [List.map_cons, List.cons.injEq, ih, Tensor.cmpKey_eq_iff, Prod.mk.injEq]

/-- `==`: the operators and the tensors are the same, and the coefficients differ by at most a billionth of the larger one, or by 1e-15.  `!=` is the
opposite. -/
theorem C65_equal_partial (x y : Term) (h : x.sqOp.upper.ty = y.sqOp.upper.ty) : ∃ b : Bool, x.pyEq y = .ok b ∧ x.pyNe y = .ok (!b) ∧
    (b = true ↔ (|x.coeff - y.coeff| ≤ 1 / 10 ^ 9 * |x.coeff| ∨ |x.coeff - y.coeff| ≤ 1 / 10 ^ 9 * |y.coeff| ∨ |x.coeff - y.coeff| ≤ 1 / 10 ^ 15) ∧
      x.sqOp.upper.list = y.sqOp.upper.list ∧ x.sqOp.lower.list = y.sqOp.lower.list ∧
      x.tensors.map (fun t => (t.priority, t.name, t.upper.list, t.lower.list)) =
        y.tensors.map (fun t => (t.priority, t.name, t.upper.list, t.lower.list))) := by
  have hclose : isClose x.coeff y.coeff = true ↔
      |x.coeff - y.coeff| ≤ 1 / 10 ^ 9 * |x.coeff| ∨ |x.coeff - y.coeff| ≤ 1 / 10 ^ 9 * |y.coeff| ∨ |x.coeff - y.coeff| ≤ 1 / 10 ^ 15 := by
    unfold isClose
    rw [decide_eq_true_iff, mul_max_of_nonneg _ _ (by norm_num), le_max_iff, le_max_iff, or_assoc]
  have hweak : x.weakEqCore y = true ↔ x.sqOp.upper.list = y.sqOp.upper.list ∧ x.sqOp.lower.list = y.sqOp.lower.list ∧
      x.tensors.map (fun t => (t.priority, t.name, t.upper.list, t.lower.list)) =
        y.tensors.map (fun t => (t.priority, t.name, t.upper.list, t.lower.list)) := by
    unfold Term.weakEqCore
    rw [Bool.and_eq_true, IndicesPair.eqCore_eq, tensorsEq_eq, decide_eq_true_iff, decide_eq_true_iff, IndicesPair.cmpKey_eq_iff, tensorKeys_iff]
    tauto
  rw [← hclose, ← hweak]
  have hck : x.checkOperand y = .ok () := by simp [Term.checkOperand, IndicesPair.checkOperand, h]
  unfold Term.pyEq Term.pyNe
  by_cases hc : isClose x.coeff y.coeff = true
  · rw [if_pos hc, if_pos hc, hck]
    exact ⟨_, rfl, rfl, by simp [hc]⟩
  · rw [if_neg hc, if_neg hc]
    exact ⟨false, rfl, rfl, by simp [hc]⟩

/-- `almost_equal` disregards the coefficient: it says whether `==` would hold if the coefficients were the same. -/
theorem C65_almost_equal (x y : Term) : x.almostEqual y = ({ x with coeff := y.coeff } : Term).pyEq y := by
  unfold Term.pyEq
  rw [if_pos (by unfold isClose; rw [decide_eq_true_iff]; simp only [sub_self, abs_zero, max_self]; exact le_max_of_le_right (by norm_num))]
  rfl

/-- Terms with the same coefficient are equal when neither is less than the other. -/
theorem C65_equal_agrees_partial (x y : Term) (h : x.sqOp.upper.ty = y.sqOp.upper.ty) (hc : x.coeff = y.coeff) :
    x.pyEq y = .ok true ↔ x.pyLt y = .ok false ∧ y.pyLt x = .ok false := by
  rw [(C65_order_partial x y y h rfl).2.2.1]
  obtain ⟨b, h1, -, h2⟩ := C65_equal_partial x y h
  rw [h1]
  simp only [Except.ok.injEq, h2, hc, sub_self, abs_zero]
  constructor
  · rintro ⟨-, h⟩; exact ⟨trivial, h⟩
  · rintro ⟨-, h⟩; exact ⟨Or.inr (Or.inr (by norm_num)), h⟩

/-- Comparing terms with labels of different classes raises `TypeError`. -/
theorem C65_error (x y : Term) (h : x.sqOp.upper.ty ≠ y.sqOp.upper.ty) :
    x.pyLt y = .error .typeError ∧ x.pyLe y = .error .typeError ∧ x.pyGt y = .error .typeError ∧ x.pyGe y = .error .typeError := by
  simp [Term.pyLt, Term.pyLe, Term.pyGt, Term.pyGe, Term.checkOperand, IndicesPair.checkOperand, h, bind, Except.bind]

/-- A term with the given coefficient. -/
def withCoeff (c : ℚ) : Term :=
  ⟨c, soOp [lab .g 1] [lab .g 0], [soTensor .hamiltonian 'H' 0 [lab .g 0] [lab .g 1]], {lab .g 0, lab .g 1}, fun _ => 2, ∅⟩

/-- `==` does not agree with `<`: two terms can be equal and one less than the other. -/
theorem C65_violation_equal_and_less : ∃ x y : Term, x.pyEq y = .ok true ∧ x.pyLt y = .ok true :=
  ⟨withCoeff 1, withCoeff (1 + 1 / 10 ^ 10), by decide +kernel, by decide +kernel⟩

/-- `==` is not transitive. -/
theorem C65_violation_not_transitive : ∃ x y z : Term, x.pyEq y = .ok true ∧ y.pyEq z = .ok true ∧ x.pyEq z = .ok false :=
  ⟨withCoeff 1, withCoeff (1 + 9 / 10 ^ 10), withCoeff (1 + 18 / 10 ^ 10), by decide +kernel, by decide +kernel, by decide +kernel⟩

end Dsrg
