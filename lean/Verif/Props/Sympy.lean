import Verif.Props.Terms
import Verif.Lemmas.SympyValue

/-!
Property theorems about `canonicalize_sympy`, for every function `canon` that meets SymPy's contract (Verif/Spec/DoubleCoset.lean).
-/

namespace Dsrg

section
variable {O R M : Type} [Fintype O] [DecidableEq O] [Inhabited O] [CommRing R] [Algebra ℚ R] [AddCommGroup M] [Module R M]

theorem Term.simplify_kinds {ord : SetOrder} {ts : List Tensor} {op : SqOp} {c : ℚ} {t s : Term} {core removeActive : Bool}
    (ht : Term.make ts op c = .ok t) (hs : t.simplify ord core removeActive = .ok s)
    (hbal : op.upper.list.length = op.lower.list.length) (hkind : ∀ x ∈ ts, ∀ y ∈ ts, x.name = y.name → x.cls = y.cls) :
    s.sqOp.upper.list.length = s.sqOp.lower.list.length ∧ s.sqOp.upper.ty = op.upper.ty ∧
      (∀ x ∈ s.tensors, ∀ y ∈ s.tensors, x.name = y.name → x.cls = y.cls) ∧ ∀ x ∈ s.tensors, x.upper.ty = s.sqOp.upper.ty := by
  obtain ⟨h1, -, -, rfl⟩ := Term.make_ok.1 ht
  obtain ⟨f, hf, ho⟩ := Term.simplify_origin hs
  have hty : s.sqOp.upper.ty = op.upper.ty := by rcases ho with ho | ⟨ho, -⟩ <;> rw [ho] <;> rfl
  refine ⟨?_, hty, ?_, ?_⟩
  · rcases ho with ho | ⟨ho, -⟩
    · rw [ho]; simpa [IndicesPair.relabel] using hbal
    · rw [ho]; rfl
  · intro x hx y hy e
    obtain ⟨x', hx', -, rfl⟩ := hf x hx
    obtain ⟨y', hy', -, rfl⟩ := hf y hy
    exact hkind x' ((sortTensors_perm ts).mem_iff.1 hx') y' ((sortTensors_perm ts).mem_iff.1 hy') e
  · intro x hx
    obtain ⟨x', hx', -, rfl⟩ := hf x hx
    rw [hty]
    exact h1 x' ((sortTensors_perm ts).mem_iff.1 hx')

/-! ### C43 canonicalize_sympy preserves the value -/

/-- For every `canon` that meets SymPy's contract, the result of `canonicalize_sympy` has the value of the simplified term `s`,
if the operator has as many creation as annihilation labels and factors of one name are of one kind.  Coefficients below `10⁻¹⁵`,
which the code takes for zero, are excluded. -/
theorem C43_canonicalize_sympy_partial (canon : List Nat → List (Nat × Nat) → List SlotGroup → Option (List Nat)) (hcanon : CanonContract canon)
    (ord : SetOrder) (ts : List Tensor) (op : SqOp) (c : ℚ) (t s r : Term) (ht : Term.make ts op c = .ok t) (core removeActive hermitian : Bool)
    (hs : t.simplify ord core removeActive = .ok s) (hr : t.canonicalizeSympy canon ord core removeActive hermitian = .ok r)
    (hc : c = 0 ∨ 1 / 10 ^ 15 ≤ |c|) (hbal : op.upper.list.length = op.lower.list.length)
    (hkind : ∀ x ∈ ts, ∀ y ∈ ts, x.name = y.name → x.cls = y.cls)
    (orb : Orbitals O) (I : Interp O R M) (hI : I.SlotSymmetric op.upper.ty.isAntisym hermitian) :
    I.value orb r.coeff r.tensors r.sqOp = I.value orb s.coeff s.tensors s.sqOp := by
  have hw := Term.wf_of_make ht
  have htc : t.coeff = c := by obtain ⟨-, -, -, rfl⟩ := Term.make_ok.1 ht; rfl
  obtain ⟨hset, hco⟩ := Term.simplify_shape hw.set_sub hs
  obtain ⟨hb, hty, hk, -⟩ := Term.simplify_kinds ht hs hbal hkind
  unfold Term.canonicalizeSympy at hr
  simp only [bind, Except.bind, hs] at hr
  by_cases hv : s.isVoid = true
  · rw [if_pos hv] at hr
    have h0 : s.coeff = 0 := by
      rcases hco with h | h
      · rw [htc] at h
        rcases hc with hc | hc
        · rw [h, hc]
        · simp only [Term.isVoid, decide_eq_true_eq, h] at hv
          exact absurd hv (not_lt.2 hc)
      · exact h
    unfold Term.void at hr
    obtain ⟨-, -, -, rfl⟩ := Term.make_ok.1 hr
    rw [h0, I.value_zero, I.value_zero]
  rw [if_neg hv] at hr
  cases hn : slotNames (dictFind s.minimalIndices) (fun m => 2 * (sortedDummies s.minimalIndices).idxOf m) (slotLabels s.tensors s.sqOp) with
  | error e => rw [hn] at hr; simp at hr
  | ok names =>
  rw [hn] at hr
  simp only [] at hr
  cases hv : bsgsList s.tensors s.sqOp hermitian with
  | error e => rw [hv] at hr; simp at hr
  | ok v =>
  rw [hv] at hr
  simp only [] at hr
  split_ifs at hr with hp
  cases hg : canon (names ++ [names.length, names.length + 1]) (dummyRanges 0 (spaceGroups (sortedDummies s.minimalIndices))) v with
  | none => rw [hg] at hr; simp at hr
  | some gc =>
  rw [hg] at hr
  simp only [] at hr
  cases hop : rebuildOp (sortedDummies s.minimalIndices) s.sqOp gc with
  | error e => rw [hop] at hr; simp at hr
  | ok op' =>
  rw [hop] at hr
  simp only [] at hr
  cases hts : rebuildTensors (sortedDummies s.minimalIndices) s.tensors (gc.drop s.sqOp.size) with
  | error e => rw [hts] at hr; simp at hr
  | ok ts' =>
  rw [hts] at hr
  exact Term.sympy_value hcanon hset hb hk hn hv hp hg hop hts hr I orb (by rw [hty]; exact hI)

/-- Simplification and SymPy together keep the value of a term with separated deltas. -/
theorem C43_value_partial (canon : List Nat → List (Nat × Nat) → List SlotGroup → Option (List Nat)) (hcanon : CanonContract canon)
    (ord : SetOrder) (hord : ord.Lawful) (ts : List Tensor) (op : SqOp) (c : ℚ) (t r : Term) (ht : Term.make ts op c = .ok t)
    (core removeActive hermitian : Bool) (hsep : Separated core ts op)
    (hr : t.canonicalizeSympy canon ord core removeActive hermitian = .ok r)
    (hc : c = 0 ∨ 1 / 10 ^ 15 ≤ |c|) (hbal : op.upper.list.length = op.lower.list.length)
    (hkind : ∀ x ∈ ts, ∀ y ∈ ts, x.name = y.name → x.cls = y.cls)
    (orb : Orbitals O) (I : Interp O R M) (hI : I.SlotSymmetric op.upper.ty.isAntisym hermitian)
    (hph : I.Physical orb) (hac : I.ActiveCumulants orb) (hna : removeActive = true → I.NoActiveAmplitudes orb) :
    I.value orb r.coeff r.tensors r.sqOp = I.value orb c ts op := by
  have hr' := hr
  unfold Term.canonicalizeSympy at hr'
  simp only [bind, Except.bind] at hr'
  cases hs : t.simplify ord core removeActive with
  | error e => rw [hs] at hr'; simp at hr'
  | ok s =>
    rw [C43_canonicalize_sympy_partial canon hcanon ord ts op c t s r ht core removeActive hermitian hs hr hc hbal hkind orb I hI]
    exact C40_simplify_partial ord hord ts op c t s ht core removeActive hsep hs orb I hph hac hna

/-- `canonicalize_sympy` raises `TypeError` only for terms whose value is zero: that is how SymPy's answer `0` shows. -/
theorem C43_typeError_only_for_zero_partial (canon : List Nat → List (Nat × Nat) → List SlotGroup → Option (List Nat)) (hcanon : CanonContract canon)
    (ord : SetOrder) (ts : List Tensor) (op : SqOp) (c : ℚ) (t s : Term) (ht : Term.make ts op c = .ok t) (core removeActive hermitian : Bool)
    (hs : t.simplify ord core removeActive = .ok s) (htwo : ∀ i, occurrences s.tensors s.sqOp i ≤ 2)
    (hr : t.canonicalizeSympy canon ord core removeActive hermitian = .error .typeError)
    (hbal : op.upper.list.length = op.lower.list.length) (hkind : ∀ x ∈ ts, ∀ y ∈ ts, x.name = y.name → x.cls = y.cls)
    (orb : Orbitals O) (I : Interp O R M) (hI : I.SlotSymmetric op.upper.ty.isAntisym hermitian) :
    I.value orb s.coeff s.tensors s.sqOp = 0 := by
  have hw := Term.wf_of_make ht
  obtain ⟨hset, -⟩ := Term.simplify_shape hw.set_sub hs
  obtain ⟨hb, hty, hk, htys⟩ := Term.simplify_kinds ht hs hbal hkind
  obtain ⟨names, v, h1, h2, h3, h4⟩ := Term.sympy_typeError hs htys hr
  refine Term.sympy_zero hcanon hset htys hb hk ?_ h1 h2 ?_ h4 I orb (by rw [hty]; exact hI)
  · intro i; rw [← occurrences_eq]; exact htwo i
  · exact (List.nodup_append.1 (h3.nodup_iff.2 List.nodup_range)).1

end

/-! #### SymPy's answer `0` -/

/-- What is handed to SymPy for a term with coefficient 1: slot names, ranges of summation names, symmetries; with a flag telling
that the term gets there. -/
def sympyInput (ts : List Tensor) (op : SqOp) (core removeActive hermitian : Bool) :
    Except PyErr (Bool × List Nat × List (Nat × Nat) × List SlotGroup) := do
  let t ← Term.make ts op 1
  let s ← t.simplify SetOrder.sorted core removeActive
  let names ← slotNames (dictFind s.minimalIndices) (fun m => 2 * (sortedDummies s.minimalIndices).idxOf m) (slotLabels s.tensors s.sqOp)
  let v ← bsgsList s.tensors s.sqOp hermitian
  pure (t.diag.card = 0 && !s.isVoid, names, dummyRanges 0 (spaceGroups (sortedDummies s.minimalIndices)), v)

theorem sympyInput_ok {ts : List Tensor} {op : SqOp} {core removeActive hermitian : Bool} {names : List Nat} {ranges : List (Nat × Nat)}
    {v : List SlotGroup} (h : sympyInput ts op core removeActive hermitian = .ok (true, names, ranges, v)) :
    ∃ t s, Term.make ts op 1 = .ok t ∧ t.diag.card = 0 ∧ t.simplify SetOrder.sorted core removeActive = .ok s ∧
      ∀ canon, t.canonicalize canon SetOrder.sorted core removeActive hermitian =
        if (names ++ [names.length, names.length + 1]).Perm (List.range (names ++ [names.length, names.length + 1]).length) then
          match canon (names ++ [names.length, names.length + 1]) ranges v with
          | none => .error .typeError
          | some gc => do
            let op ← rebuildOp (sortedDummies s.minimalIndices) s.sqOp gc
            let ts ← rebuildTensors (sortedDummies s.minimalIndices) s.tensors (gc.drop s.sqOp.size)
            let sign : ℚ := if (names ++ [names.length, names.length + 1]).getLastD 0 ≠ gc.getLastD 0 then -1 else 1
            Term.make ts op (sign * s.coeff)
        else .error .valueError := by
  unfold sympyInput at h
  simp only [bind, Except.bind] at h
  cases h1 : Term.make ts op 1 with
  | error e => rw [h1] at h; simp at h
  | ok t =>
  rw [h1] at h
  simp only [] at h
  cases h2 : t.simplify SetOrder.sorted core removeActive with
  | error e => rw [h2] at h; simp at h
  | ok s =>
  rw [h2] at h
  simp only [] at h
  cases h3 : slotNames (dictFind s.minimalIndices) (fun m => 2 * (sortedDummies s.minimalIndices).idxOf m) (slotLabels s.tensors s.sqOp) with
  | error e => rw [h3] at h; simp at h
  | ok names' =>
  rw [h3] at h
  simp only [] at h
  cases h4 : bsgsList s.tensors s.sqOp hermitian with
  | error e => rw [h4] at h; simp at h
  | ok v' =>
  rw [h4] at h
  simp only [pure, Except.pure, Except.ok.injEq, Prod.mk.injEq] at h
  obtain ⟨hdv, rfl, rfl, rfl⟩ := h
  simp only [Bool.and_eq_true, decide_eq_true_eq, Bool.not_eq_true'] at hdv
  obtain ⟨hd, hv⟩ := hdv
  refine ⟨t, s, rfl, hd, h2, ?_⟩
  intro canon
  unfold Term.canonicalize Term.canonicalizeSympy
  rw [hd, if_neg (by simp)]
  simp only [bind, Except.bind, h2, h3, h4, hv]
  simp
  rfl

theorem eq_ok_of_check {α : Type} [DecidableEq α] {x : Except PyErr α} {a : α}
    (h : (match x with | .ok b => decide (b = a) | .error _ => false) = true) : x = .ok a := by
  cases x with
  | error e => simp at h
  | ok b => simpa using h

/-- `H^{g0}_{g1} H^{g0,g1}_{g2,g3} a^{g2}_{g3}` vanishes, since the first factor is symmetric and the second antisymmetric.  SymPy
therefore answers `0`, and `canonicalize` raises `TypeError` instead of returning a term. -/
theorem C43_violation_zero : ∃ ts op t, Term.make ts op 1 = .ok t ∧ ∀ canon, CanonContract canon →
    t.canonicalize canon SetOrder.sorted true true true = .error .typeError := by
  obtain ⟨t, s, ht, -, -, h⟩ := sympyInput_ok (core := true) (removeActive := true) (hermitian := true)
    (ts := [soTensor .hamiltonian 'H' 0 [lab .g 0] [lab .g 1], soTensor .hamiltonian 'H' 0 [lab .g 0, lab .g 1] [lab .g 2, lab .g 3]])
    (op := soOp [lab .g 2] [lab .g 3]) (names := [2, 0, 6, 4, 1, 3, 5, 7]) (ranges := [(0, 8)])
    (v := [⟨[], 2, 1⟩, ⟨[[1, 0, 2, 3]], 2, 1⟩, ⟨[[1, 0, 2, 3, 5, 4], [0, 1, 3, 2, 5, 4], [2, 3, 0, 1, 4, 5]], 4, 1⟩]) (eq_ok_of_check (by decide +kernel))
  refine ⟨_, _, t, ht, fun canon hcanon => ?_⟩
  rw [h canon, if_pos (by decide)]
  rw [(hcanon.zero _ _ _).2]
  have e1 : SymStep [(0, 8)] [⟨[], 2, 1⟩, ⟨[[1, 0, 2, 3]], 2, 1⟩, ⟨[[1, 0, 2, 3, 5, 4], [0, 1, 3, 2, 5, 4], [2, 3, 0, 1, 4, 5]], 4, 1⟩]
      [2, 0, 6, 4, 1, 3, 5, 7, 8, 9] [2, 0, 4, 6, 1, 3, 5, 7, 8, 9] :=
    .slots ⟨[[1, 0, 2, 3]], 2, 1⟩ 0 [1, 0, 2, 3] [2, 0] [6, 4] [4, 6] [1, 3, 5, 7] 8 9 8 9
      ⟨[⟨[], 2, 1⟩], [⟨[[1, 0, 2, 3, 5, 4], [0, 1, 3, 2, 5, 4], [2, 3, 0, 1, 4, 5]], 4, 1⟩], rfl, by decide, rfl⟩ (by simp) rfl rfl
  have e2 : SymStep [(0, 8)] [⟨[], 2, 1⟩, ⟨[[1, 0, 2, 3]], 2, 1⟩, ⟨[[1, 0, 2, 3, 5, 4], [0, 1, 3, 2, 5, 4], [2, 3, 0, 1, 4, 5]], 4, 1⟩]
      [2, 0, 4, 6, 1, 3, 5, 7, 8, 9] [2, 0, 6, 4, 1, 3, 7, 5, 8, 9] :=
    .rename (0, 8) 2 3 [2, 0, 4, 6, 1, 3, 5, 7] 8 9 (by simp) (by decide) (by decide) (by decide) (by decide)
  have e3 : SymStep [(0, 8)] [⟨[], 2, 1⟩, ⟨[[1, 0, 2, 3]], 2, 1⟩, ⟨[[1, 0, 2, 3, 5, 4], [0, 1, 3, 2, 5, 4], [2, 3, 0, 1, 4, 5]], 4, 1⟩]
      [2, 0, 6, 4, 1, 3, 7, 5, 8, 9] [2, 0, 6, 4, 1, 3, 5, 7, 9, 8] :=
    .slots ⟨[[1, 0, 2, 3, 5, 4], [0, 1, 3, 2, 5, 4], [2, 3, 0, 1, 4, 5]], 4, 1⟩ 0 [0, 1, 3, 2, 5, 4] [2, 0, 6, 4] [1, 3, 7, 5] [1, 3, 5, 7] []
      8 9 9 8 ⟨[⟨[], 2, 1⟩, ⟨[[1, 0, 2, 3]], 2, 1⟩], [], rfl, by decide, rfl⟩ (by simp) rfl rfl
  exact .tail (.tail (.tail .refl e1) e2) e3

/-- For an antisymmetric operator with different numbers of creation and annihilation labels, the symmetries handed to SymPy contain
an exchange of an annihilation label (a lower label) with a creation label (an upper label). -/
theorem C43_violation_unbalanced_operator (op : SqOp) (hty : op.upper.ty.isAntisym = true)
    (hu : 1 ≤ op.upper.list.length) (hl : 1 ≤ op.lower.list.length) (hne : op.upper.list.length ≠ op.lower.list.length) :
    ∃ gens p, op.opBsgs = .ok gens ∧ p ∈ gens ∧ ∀ (lo up : List Nat) (a c s s' : Nat),
      (lo ++ [a]).length = op.lower.list.length → (c :: up).length = op.upper.list.length →
      permuteSlots p (lo ++ [a] ++ c :: up ++ [s, s']) = lo ++ [c] ++ a :: up ++ [s', s] := by
  have hnU : op.nUpper = op.upper.list.length := rfl
  have hnL : op.nLower = op.lower.list.length := rfl
  have hb : op.opBsgs = .ok (asymGens op.nUpper op.nLower false) := by
    unfold IndicesPair.opBsgs IndicesPair.bsgs
    rw [if_pos hty, if_neg (by rw [IndicesPair.size, hnU, hnL]; omega), if_neg (by simp), if_neg (by simp [hty]),
      if_pos rfl, if_neg (by omega)]
  refine ⟨_, signedSwapArray (op.nUpper + op.nLower + 2) (op.nLower - 1) (op.nLower - 1 + 1), hb, ?_, ?_⟩
  · unfold asymGens
    rcases lt_or_gt_of_ne hne with h | h
    · refine List.mem_append.2 (.inl (List.mem_append.2 (.inr ?_)))
      refine List.mem_map.2 ⟨op.nLower - 1 - op.nUpper, List.mem_range.2 (by omega), ?_⟩
      have e : op.nUpper + (op.nLower - 1 - op.nUpper) = op.nLower - 1 := by omega
      simp only [e]
    · refine List.mem_append.2 (.inl (List.mem_append.2 (.inl ?_)))
      exact List.mem_map.2 ⟨op.nLower - 1, List.mem_range.2 (by omega), rfl⟩
  · intro lo up a c s s' h1 h2
    simp only [List.length_append, List.length_cons, List.length_nil] at h1 h2
    have key := permuteSlots_signedSwap lo up a c s s' (op.nUpper + op.nLower + 2) (op.nLower - 1) (op.nLower - 1 + 1) (by omega) (by omega)
      (by simp; omega)
    simpa using key

/-! #### A case that meets the hypotheses -/

open Classical in
/-- The function that answers `0` when it must and its input otherwise. -/
noncomputable def lazyCanon (g : List Nat) (dummies : List (Nat × Nat)) (v : List SlotGroup) : Option (List Nat) :=
  if Relation.ReflTransGen (SymStep dummies v) g (flipSign g) then none else some g

theorem lazyCanon_contract : CanonContract lazyCanon where
  reach g dummies v gc h := by
    unfold lazyCanon at h
    split_ifs at h with hz
    simp only [Option.some.injEq] at h
    rw [h]
  zero g dummies v := by
    unfold lazyCanon
    split_ifs with hz
    · simp [hz]
    · simp [hz]

theorem lazyCanon_run {ord : SetOrder} {t r : Term} {core removeActive hermitian : Bool}
    (h : t.canonicalizeSympy (fun g _ _ => some g) ord core removeActive hermitian = .ok r) :
    t.canonicalizeSympy lazyCanon ord core removeActive hermitian = .ok r ∨
      t.canonicalizeSympy lazyCanon ord core removeActive hermitian = .error .typeError := by
  unfold Term.canonicalizeSympy at h ⊢
  cases hs : t.simplify ord core removeActive with
  | error e => rw [hs] at h; simp [bind, Except.bind] at h
  | ok s =>
  simp only [hs, bind, Except.bind] at h ⊢
  split_ifs at h ⊢ with hv
  · exact .inl h
  cases hn : slotNames (dictFind s.minimalIndices) (fun m => 2 * (sortedDummies s.minimalIndices).idxOf m) (slotLabels s.tensors s.sqOp) with
  | error e => rw [hn] at h; simp at h
  | ok names =>
  simp only [hn] at h ⊢
  cases hb : bsgsList s.tensors s.sqOp hermitian with
  | error e => rw [hb] at h; simp at h
  | ok v =>
  simp only [hb] at h ⊢
  by_cases hp : (names ++ [names.length, names.length + 1]).Perm (List.range (names ++ [names.length, names.length + 1]).length)
  · rw [if_pos hp] at h ⊢
    unfold lazyCanon
    by_cases hz : Relation.ReflTransGen (SymStep (dummyRanges 0 (spaceGroups (sortedDummies s.minimalIndices))) v)
        (names ++ [names.length, names.length + 1]) (flipSign (names ++ [names.length, names.length + 1]))
    · rw [if_pos hz]; exact .inr rfl
    · rw [if_neg hz]; exact .inl h
  · rw [if_neg hp] at h
    simp at h

/-- Two orbitals, both occupied: `1` or `-1` according to the order. -/
def pairSign : List (Fin 2) → ℚ
  | [a, b] => if a = 0 ∧ b = 1 then 1 else if a = 1 ∧ b = 0 then -1 else 0
  | _ => 0

theorem pairSign_swap (pre post : List (Fin 2)) (a b : Fin 2) : pairSign (pre ++ b :: a :: post) = -pairSign (pre ++ a :: b :: post) := by
  match pre, post with
  | [], [] => revert a b; decide +kernel
  | [], _ :: _ => simp [pairSign]
  | [_], _ => simp [pairSign]
  | _ :: _ :: _, _ => simp [pairSign]

/-- Every tensor is `pairSign` of its upper and lower labels. -/
def signInterp : Interp (Fin 2) ℚ ℚ where
  tensor _ _ u l := pairSign u * pairSign l
  op u l := pairSign u * pairSign l

theorem signInterp_symmetric : signInterp.SlotSymmetric true true := by
  refine ⟨fun _ => ⟨?_, ?_, ?_, ?_⟩, by simp, ?_⟩
  · intro _ _ pre a b post l; simp [signInterp, pairSign_swap pre post a b]
  · intro _ _ u pre a b post; simp [signInterp, pairSign_swap pre post a b]
  · intro pre a b post l; simp [signInterp, pairSign_swap pre post a b]
  · intro u pre a b post; simp [signInterp, pairSign_swap pre post a b]
  · intro _ _ _ u l; simp [signInterp, mul_comm]

/-- `H^{g0,g1}_{g2,g3} a^{g2,g3}_{g0,g1}` is canonicalized, and its value is not zero. -/
theorem C43_example : ∃ ts op t r, Term.make ts op 1 = .ok t ∧ t.canonicalizeSympy lazyCanon SetOrder.sorted true true true = .ok r ∧
    op.upper.list.length = op.lower.list.length ∧ (∀ x ∈ ts, ∀ y ∈ ts, x.name = y.name → x.cls = y.cls) ∧
    signInterp.value twoActive 1 ts op ≠ 0 := by
  obtain ⟨t, s, h1, h2, h3, h4, h5⟩ := simplifyVisible_ok (core := true) (removeActive := true)
    (ts := [soTensor .hamiltonian 'H' 0 [lab .g 0, lab .g 1] [lab .g 2, lab .g 3]])
    (op := soOp [lab .g 2, lab .g 3] [lab .g 0, lab .g 1]) (c' := 1)
    (ts' := [soTensor .hamiltonian 'H' 0 [lab .g 0, lab .g 1] [lab .g 2, lab .g 3]])
    (op' := soOp [lab .g 2, lab .g 3] [lab .g 0, lab .g 1]) (by decide +kernel)
  have hrun : (match (Term.make [soTensor .hamiltonian 'H' 0 [lab .g 0, lab .g 1] [lab .g 2, lab .g 3]]
      (soOp [lab .g 2, lab .g 3] [lab .g 0, lab .g 1]) 1 >>= fun t => t.canonicalizeSympy (fun g _ _ => some g) SetOrder.sorted true true true) with
      | .ok _ => true | .error _ => false) = true := by decide +kernel
  rw [h1] at hrun
  simp only [bind, Except.bind] at hrun
  cases hr : t.canonicalizeSympy (fun g _ _ => some g) SetOrder.sorted true true true with
  | error e => rw [hr] at hrun; simp at hrun
  | ok r =>
    have hk : ∀ x ∈ [soTensor .hamiltonian 'H' 0 [lab .g 0, lab .g 1] [lab .g 2, lab .g 3]],
        ∀ y ∈ [soTensor .hamiltonian 'H' 0 [lab .g 0, lab .g 1] [lab .g 2, lab .g 3]], x.name = y.name → x.cls = y.cls := by decide
    have hval : signInterp.value twoActive 1 [soTensor .hamiltonian 'H' 0 [lab .g 0, lab .g 1] [lab .g 2, lab .g 3]]
        (soOp [lab .g 2, lab .g 3] [lab .g 0, lab .g 1]) ≠ 0 := by decide +kernel
    refine ⟨_, _, t, r, h1, ?_, rfl, hk, hval⟩
    rcases lazyCanon_run hr with h | h
    · exact h
    · exfalso
      refine hval ?_
      have := C43_typeError_only_for_zero_partial lazyCanon lazyCanon_contract _ _ _ 1 t s h1 true true true h2 ?_ h rfl hk twoActive signInterp
        signInterp_symmetric
      · rwa [h3, h4, h5] at this
      · intro i
        rw [h4, h5]
        by_cases hi : i ∈ [lab .g 0, lab .g 1, lab .g 2, lab .g 3]
        · revert i; decide +kernel
        · simp only [List.mem_cons, List.not_mem_nil, or_false, not_or] at hi
          obtain ⟨k0, k1, k2, k3⟩ := hi
          simp [occurrences, soTensor, soOp, Tensor.upper, Tensor.lower, List.count_cons, Ne.symm k0, Ne.symm k1, Ne.symm k2, Ne.symm k3]

end Dsrg
