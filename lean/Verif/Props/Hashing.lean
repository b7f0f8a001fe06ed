import Verif.Lemmas.Hashing
import Verif.Props.Combine
import Verif.Props.Latex

/-!
C95 Objects that compare equal have equal hashes, so sets and dictionaries find them.
-/

namespace Dsrg

/-- Equal label lists have equal hashes, and a set of label lists of one class keeps one object for every list of labels. -/
theorem C95_indices (H : PyHash) (l : List Indices) (ty : IType) (hl : ∀ x ∈ l, x.ty = ty) :
    (∀ x y : Indices, x.pyEq y = .ok true → x.pyHash H = y.pyHash H) ∧
    ∃ s, pySet (Indices.pyHash H) Indices.pyEq l = .ok s ∧ s.Sublist l ∧ (s.map Indices.list).Nodup ∧ ∀ x ∈ l, ∃ y ∈ s, y.list = x.list := by
  have heq : ∀ x y : Indices, x.ty = ty → y.ty = ty → x.pyEq y = .ok (decide (x.list = y.list)) := by
    intro x y hx hy
    unfold Indices.pyEq Indices.checkOperand
    rw [hx, hy, if_pos rfl, Indices.eqCore_eq]; rfl
  refine ⟨?_, ?_⟩
  · intro x y h
    have hty : x.ty = y.ty := by
      by_contra hne
      unfold Indices.pyEq Indices.checkOperand at h
      rw [if_neg hne] at h
      cases h
    by_cases hk : x.list = y.list
    · unfold Indices.pyHash; rw [hk]
    · rw [((C15_indices.eq_spec x y hty).2 hk).1] at h; cases h
  · obtain ⟨s, h1, h2, h3, h4⟩ := pySet_ok (Indices.pyHash H) Indices.pyEq Indices.list (fun x => x.ty = ty) heq
      (fun x y _ _ e => by unfold Indices.pyHash; rw [e]) l hl
    refine ⟨s, h1, h2, h3, fun x hx => ?_⟩
    obtain ⟨y, hy, e⟩ := List.mem_map.mp (h4 x hx)
    exact ⟨y, hy, e⟩

/-- The same for pairs of label lists and second-quantized operators. -/
theorem C95_pairs (H : PyHash) (l : List IndicesPair) (ty : IType) (hl : ∀ x ∈ l, x.upper.ty = ty) :
    (∀ x y : IndicesPair, x.pyEq y = .ok true → x.pyHash H = y.pyHash H) ∧
    ∃ s, pySet (IndicesPair.pyHash H) IndicesPair.pyEq l = .ok s ∧ s.Sublist l ∧
      (s.map fun x => (x.upper.list, x.lower.list)).Nodup ∧ ∀ x ∈ l, ∃ y ∈ s, y.upper.list = x.upper.list ∧ y.lower.list = x.lower.list := by
  have hh : ∀ x y : IndicesPair, (x.upper.list, x.lower.list) = (y.upper.list, y.lower.list) → x.pyHash H = y.pyHash H := by
    intro x y e
    simp only [Prod.mk.injEq] at e
    unfold IndicesPair.pyHash Indices.pyHash
    rw [e.1, e.2]
  have heq : ∀ x y : IndicesPair, x.upper.ty = y.upper.ty → x.pyEq y = .ok (decide ((x.upper.list, x.lower.list) = (y.upper.list, y.lower.list))) := by
    intro x y hxy
    by_cases hk : x.upper.list = y.upper.list ∧ x.lower.list = y.lower.list
    · rw [((C15_pairs.eq_spec x y hxy).1 hk).1]; simp [hk]
    · rw [((C15_pairs.eq_spec x y hxy).2 hk).1]; simpa using hk
  refine ⟨?_, ?_⟩
  · intro x y h
    by_cases hty : x.upper.ty = y.upper.ty
    · rw [heq x y hty] at h
      injection h with h
      exact hh x y (of_decide_eq_true h)
    · rw [(C15_pairs.error_spec x y hty).1] at h; cases h
  · obtain ⟨s, h1, h2, h3, h4⟩ := pySet_ok (IndicesPair.pyHash H) IndicesPair.pyEq (fun x => (x.upper.list, x.lower.list))
      (fun x => x.upper.ty = ty) (fun x y hx hy => heq x y (hx.trans hy.symm)) (fun x y _ _ e => hh x y e) l hl
    refine ⟨s, h1, h2, h3, fun x hx => ?_⟩
    obtain ⟨y, hy, e⟩ := List.mem_map.mp (h4 x hx)
    simp only [Prod.mk.injEq] at e
    exact ⟨y, hy, e.1, e.2⟩

/-- The same for tensors. -/
theorem C95_tensors (H : PyHash) (l : List Tensor) (ty : IType) (hl : ∀ x ∈ l, x.upper.ty = ty) :
    (∀ x y : Tensor, x.pyEq y = .ok true → x.pyHash H = y.pyHash H) ∧
    ∃ s, pySet (Tensor.pyHash H) Tensor.pyEq l = .ok s ∧ s.Sublist l ∧
      (s.map fun x => (x.priority, x.name, x.upper.list, x.lower.list)).Nodup ∧
      ∀ x ∈ l, ∃ y ∈ s, y.priority = x.priority ∧ y.name = x.name ∧ y.upper.list = x.upper.list ∧ y.lower.list = x.lower.list := by
  have hh : ∀ x y : Tensor, (x.priority, x.name, x.upper.list, x.lower.list) = (y.priority, y.name, y.upper.list, y.lower.list) →
      x.pyHash H = y.pyHash H := by
    intro x y e
    simp only [Prod.mk.injEq] at e
    obtain ⟨e1, e2, e3, e4⟩ := e
    have e3' : x.pair.upper.list = y.pair.upper.list := e3
    have e4' : x.pair.lower.list = y.pair.lower.list := e4
    unfold Tensor.pyHash Indices.pyHash IndicesPair.size IndicesPair.nUpper IndicesPair.nLower Indices.size
    rw [e1, e2, e3', e4']
  have heq : ∀ x y : Tensor, x.upper.ty = y.upper.ty →
      x.pyEq y = .ok (decide ((x.priority, x.name, x.upper.list, x.lower.list) = (y.priority, y.name, y.upper.list, y.lower.list))) := by
    intro x y hxy
    by_cases hk : x.priority = y.priority ∧ x.name = y.name ∧ x.upper.list = y.upper.list ∧ x.lower.list = y.lower.list
    · rw [((C15_tensors.eq_spec x y hxy).1 hk).1]; simp [hk]
    · rw [((C15_tensors.eq_spec x y hxy).2 hk).1]; simpa using hk
  refine ⟨?_, ?_⟩
  · intro x y h
    by_cases hty : x.upper.ty = y.upper.ty
    · rw [heq x y hty] at h
      injection h with h
      exact hh x y (of_decide_eq_true h)
    · rw [(C15_tensors.error_spec x y hty).1] at h; cases h
  · obtain ⟨s, h1, h2, h3, h4⟩ := pySet_ok (Tensor.pyHash H) Tensor.pyEq (fun x => (x.priority, x.name, x.upper.list, x.lower.list))
      (fun x => x.upper.ty = ty) (fun x y hx hy => heq x y (hx.trans hy.symm)) (fun x y _ _ e => hh x y e) l hl
    refine ⟨s, h1, h2, h3, fun x hx => ?_⟩
    obtain ⟨y, hy, e⟩ := List.mem_map.mp (h4 x hx)
    simp only [Prod.mk.injEq] at e
    exact ⟨y, hy, e.1, e.2.1, e.2.2.1, e.2.2.2⟩

/-- Violation: objects of two classes with the same labels always collide, and comparing them raises: a set cannot hold both. -/
theorem C95_violation_classes (H : PyHash) (l : List Index) (ty ty' : IType) (h : ty ≠ ty') :
    pySet (Indices.pyHash H) Indices.pyEq [⟨ty, l⟩, ⟨ty', l⟩] = .error .typeError := by
  simp only [pySet, List.foldlM_cons, List.foldlM_nil, setAdd, setMember, Indices.pyHash, Indices.pyEq, Indices.checkOperand, bind, Except.bind,
    pure, Except.pure, if_neg h, Bool.false_eq_true, if_false, List.nil_append, if_true]

/-- Equal terms whose coefficients are printed as the same fraction have equal hashes.  Missing: `==` also accepts coefficients that are
printed as different fractions (`C95_violation_terms`). -/
theorem C95_terms_partial (H : PyHash) (limit : ℚ → Nat → ℚ) (hl : ClosestFraction limit) (x y : Term) (r : ℚ) (hr : r.den ≤ 1000000000)
    (hx : |x.coeff - r| * (2 * r.den * 1000000000) < 1) (hy : |y.coeff - r| * (2 * r.den * 1000000000) < 1)
    (h : x.pyEq y = .ok true) : ∃ k, x.pyHash H limit = .ok k ∧ y.pyHash H limit = .ok k := by
  have hw : x.weakEqCore y = true := by
    unfold Term.pyEq at h
    split at h
    · cases hc : x.checkOperand y with
      | error e => rw [hc] at h; cases h
      | ok u => rw [hc] at h; injection h
    · injection h with h; cases h
  have hw := hw
  unfold Term.weakEqCore at hw
  rw [Bool.and_eq_true, IndicesPair.eqCore_eq, tensorsEq_eq, decide_eq_true_iff, decide_eq_true_iff] at hw
  obtain ⟨ho, ht⟩ := hw
  rw [IndicesPair.cmpKey_eq_iff] at ho
  have hop : SqOp.latex x.sqOp = SqOp.latex y.sqOp := by
    unfold SqOp.latex IndicesPair.latex Indices.latex
    rw [ho.1, ho.2]
  have hts : x.tensors.map Tensor.latex = y.tensors.map Tensor.latex := by
    have : ∀ a b : List Tensor, a.map Tensor.cmpKey = b.map Tensor.cmpKey → a.map Tensor.latex = b.map Tensor.latex := by
      intro a
      induction a with
      | nil => intro b hb; cases b with
        | nil => rfl
        | cons c b => cases hb
      | cons c a ih =>
        intro b hb
        cases b with
        | nil => cases hb
        | cons d b =>
          simp only [List.map_cons, List.cons.injEq] at hb ⊢
          obtain ⟨e1, e2, e3, e4⟩ := (Tensor.cmpKey_eq_iff c d).1 hb.1
          refine ⟨?_, ih b hb.2⟩
          unfold Tensor.latex IndicesPair.latex Indices.latex
          rw [e2, e3, e4]
    exact this _ _ ht
  have hc : formatCoeff limit x.coeff false = formatCoeff limit y.coeff false := by
    rw [(C63_format limit hl x.coeff r hr hx).1, (C63_format limit hl y.coeff r hr hy).1]
  have hlat : x.latex limit false false false false = y.latex limit false false false false := by
    simp only [Term.latex, bind, Except.bind, pure, Except.pure, Nat.cast_one, div_one, hts, hop, hc, Bool.false_eq_true, if_false]
  unfold Term.pyHash
  rw [hlat]
  exact ⟨_, rfl, rfl⟩

/-- Violation: two equal terms with coefficients (both of them double precision numbers) that are printed differently; the hashes are those of
two different strings, and a set of the two terms has two elements unless the strings collide. -/
theorem C95_violation_terms (H : PyHash) (limit : ℚ → Nat → ℚ) (hl : ClosestFraction limit) :
    ∃ x y : Term, x.pyEq y = .ok true ∧ (∃ n : Int, x.coeff = n / 2 ^ 52) ∧ (∃ n : Int, y.coeff = n / 2 ^ 52) ∧
      ∃ s s' : PyStr, s ≠ s' ∧ x.pyHash H limit = .ok (H.str s) ∧ y.pyHash H limit = .ok (H.str s') := by
  refine ⟨withCoeff 1, withCoeff (1 + 4000000 / 2 ^ 52), by decide +kernel, ⟨2 ^ 52, by simp only [withCoeff]; norm_num⟩, ⟨2 ^ 52 + 4000000, ?_⟩, ?_⟩
  · simp only [withCoeff]; norm_num
  · have hs : ∀ c : ℚ, (withCoeff c).pyHash H limit =
        .ok (H.str (fractionStr (limit c 1000000000) ++ (' ' :: joinWith [' '] ((withCoeff 1).tensors.map Tensor.latex) ++ ' ' :: SqOp.latex (withCoeff 1).sqOp))) := by
      intro c
      simp only [Term.pyHash, Term.latex, withCoeff, bind, Except.bind, pure, Except.pure, Nat.cast_one, div_one, Bool.false_eq_true, if_false,
        formatCoeff]
      rw [if_neg (by simp), if_pos (by simp [SqOp.latex]), List.append_nil, List.append_assoc]
    refine ⟨_, _, ?_, hs 1, hs _⟩
    intro e
    have e1 := List.append_cancel_right e
    have e2 := fractionStr_injective e1
    obtain ⟨h1, h2⟩ := hl 1 1000000000 (by norm_num)
    have h3 := h2 1 (by norm_num)
    rw [sub_self, abs_zero] at h3
    have h4 : limit 1 1000000000 = 1 := by
      have := abs_nonpos_iff.mp h3
      linarith
    obtain ⟨h5, h6⟩ := hl (1 + 4000000 / 2 ^ 52) 1000000000 (by norm_num)
    have h7 := h6 (1000000001 / 1000000000) (by norm_num)
    rw [← e2, h4] at h7
    norm_num [abs_of_pos, abs_of_neg] at h7

/-- Three tensors with two different lists of labels: the set has two elements; with the identity as limit `1/3` is printed exactly. -/
theorem C95_example :
    (pySet (Tensor.pyHash ⟨id, fun _ => 0, List.sum⟩) Tensor.pyEq [soTensor .tensor 'X' 0 [lab .g 1] [lab .a 0],
      soTensor .tensor 'X' 0 [lab .g 2] [lab .a 0], soTensor .tensor 'X' 0 [lab .g 1] [lab .a 0]]).map List.length = .ok 2 ∧
    (withCoeff (1 / 3)).pyEq (withCoeff (1 / 3 + 1 / 10 ^ 20)) = .ok true ∧
    |(1 / 3 + 1 / 10 ^ 20 : ℚ) - 1 / 3| * (2 * ((1 / 3 : ℚ)).den * 1000000000) < 1 := by
  decide +kernel

end Dsrg
