import Verif.Lemmas.CanonSymm
import Verif.Lemmas.CanonBack
import Verif.Props.Sympy
import Verif.Lemmas.Singlet

/-!
Property theorems: `canonicalize_sympy` gives the same term for products that differ in notation only, for every function `canon` that meets
SymPy's contract and answers with a canonical form (Verif/Spec/CanonicalForm.lean).
-/

namespace Dsrg

/-! ### C85 the result of canonicalize_sympy is a canonical form -/

/-- Two terms whose simplified forms differ in notation only get the same result, whatever the orders in which sets are visited. -/
theorem C85_canonical_form (canon : List Nat → List (Nat × Nat) → List SlotGroup → Option (List Nat)) (hcanon : CanonContract canon)
    (huniq : CanonUnique canon) (ord ord' : SetOrder) (core removeActive core' removeActive' hermitian : Bool) (ts ts' : List Tensor)
    (op op' : SqOp) (c c' : ℚ) (t t' s s' : Term) (ht : Term.make ts op c = .ok t) (ht' : Term.make ts' op' c' = .ok t')
    (hs : t.simplify ord core removeActive = .ok s) (hs' : t'.simplify ord' core' removeActive' = .ok s')
    (hsame : SameUpToNotation hermitian s.coeff s.tensors s.sqOp s'.coeff s'.tensors s'.sqOp) (hanti : op.upper.ty.isAntisym = true)
    (hopbal : op.upper.list.length = op.lower.list.length) (hbal : ∀ x ∈ ts, x.upper.list.length = x.lower.list.length)
    (hkind : ∀ x ∈ ts, ∀ y ∈ ts, x.name = y.name → x.cls = y.cls)
    (htwo : ∀ i ∈ labelsOf s.tensors s.sqOp, occurrences s.tensors s.sqOp i = 2) :
    t'.canonicalizeSympy canon ord' core' removeActive' hermitian = t.canonicalizeSympy canon ord core removeActive hermitian := by
  rw [canonicalizeSympy_eq, canonicalizeSympy_eq, hs, hs']
  obtain ⟨hb, hty, hk, htys⟩ := Term.simplify_kinds ht hs hopbal hkind
  refine sympyTail_same hcanon huniq (Term.simplify_shape (Term.wf_of_make ht).set_sub hs).1 (Term.simplify_shape (Term.wf_of_make ht').set_sub hs').1
    hsame (by rw [hty]; exact hanti) htys hb ?_ hk (Term.simplify_sorted ht hs) (Term.simplify_sorted ht' hs') ?_
  · intro y hy
    obtain ⟨f, hf, -⟩ := Term.simplify_origin hs
    obtain ⟨x, hx, -, rfl⟩ := hf y hy
    obtain ⟨-, -, -, rfl⟩ := Term.make_ok.1 ht
    have := hbal x ((sortTensors_perm ts).mem_iff.1 hx)
    simpa [Tensor.relabel, Tensor.upper, Tensor.lower] using this
  · intro i hi
    rw [(slotLabels_perm s.tensors s.sqOp).mem_iff, ← mem_labelsOf] at hi
    rw [(slotLabels_perm s.tensors s.sqOp).count_eq, ← occurrences_eq]
    exact htwo i hi

/-! #### Terms in which nothing is contracted -/

/-- Two terms that differ in notation only, and in which nothing is contracted, get the same result. -/
theorem C85_plain_terms (canon : List Nat → List (Nat × Nat) → List SlotGroup → Option (List Nat)) (hcanon : CanonContract canon)
    (huniq : CanonUnique canon) (ord ord' : SetOrder) (hord : ord.Lawful) (hord' : ord'.Lawful) (core removeActive hermitian : Bool)
    (ts ts' : List Tensor) (op op' : SqOp) (c c' : ℚ) (t t' r r' : Term) (ht : Term.make ts op c = .ok t) (ht' : Term.make ts' op' c' = .ok t')
    (hp : PlainProduct ts op) (hp' : PlainProduct ts' op') (hsame : SameUpToNotation hermitian c ts op c' ts' op')
    (hr : t.canonicalizeSympy canon ord core removeActive hermitian = .ok r)
    (hr' : t'.canonicalizeSympy canon ord' core removeActive hermitian = .ok r') : r' = r := by
  have hr0 := hr
  have hr0' := hr'
  rw [canonicalizeSympy_eq] at hr0 hr0'
  obtain ⟨s, hs, -⟩ := bind_ok hr0
  obtain ⟨s', hs', -⟩ := bind_ok hr0'
  have hdiag : ∀ {ts : List Tensor} {op : SqOp}, PlainProduct ts op → diagonalOf ts op = ∅ := by
    intro ts op hp
    refine Finset.eq_empty_of_forall_notMem fun i hi => ?_
    rcases mem_diagonalOf.1 hi with hi | ⟨x, hx, hi⟩
    · obtain ⟨h1, h2⟩ := hi; exact hp.opApart i h1 h2
    · obtain ⟨h1, h2⟩ := hi; exact hp.apart x hx i h1 h2
  obtain ⟨f, hf1, hf2, hf⟩ := Term.simplify_plain hord ht hs hp.delta (fun x hx hc i hi => hp.active x hx hc i (List.mem_append.1 hi)) (hdiag hp)
  obtain ⟨f', hf1', hf2', hf'⟩ := Term.simplify_plain hord' ht' hs' hp'.delta (fun x hx hc i hi => hp'.active x hx hc i (List.mem_append.1 hi)) (hdiag hp')
  obtain ⟨hforms, hopf, habs⟩ := hsame.forms hp.balanced
  rw [hsame.allActive] at hf'
  have key := C85_canonical_form canon hcanon huniq ord ord' core removeActive core removeActive hermitian ts ts' op op' c c' t t' s s' ht ht' hs hs'
    ?_ hp.antisym hp.opBalanced hp.balanced hp.kind ?_
  · rw [hr, hr'] at key
    exact Except.ok.inj key
  · by_cases hv : (removeActive && ts.any (allActiveAmplitude id)) = true
    · rw [if_pos hv] at hf hf'
      rw [hf.1, hf.2.1, hf.2.2, hf'.1, hf'.2.1, hf'.2.2]
      have : op'.upper.ty = op.upper.ty := by simp only [SqOp.form, Prod.mk.injEq] at hopf; exact hopf.1
      have e : (op'.relabel f').void = (op.relabel f).void := by simp [IndicesPair.void, IndicesPair.relabel, this]
      rw [e]
      exact .refl
    · rw [if_neg hv] at hf hf'
      rw [hf.1, hf.2.1, hf.2.2, hf'.1, hf'.2.1, hf'.2.2]
      have hsort : ∀ {ts : List Tensor} {op : SqOp} {c : ℚ} {f : Index → Index}, PlainProduct ts op →
          (∀ i ∈ labelsOf ts op, ∀ j ∈ labelsOf ts op, f i = f j → i = j) → (∀ i ∈ labelsOf ts op, (f i).space = i.space) →
          SameUpToNotation hermitian c ts op c ((sortTensors ts).map (Tensor.relabel f)) (op.relabel f) := by
        intro ts op c f hp h1 h2
        refine Relation.ReflTransGen.head (b := (c, sortTensors ts, op)) (Rewrites.reorder c ts (sortTensors ts) op (sortTensors_perm ts).symm) ?_
        refine SameUpToNotation.relabel c ?_ ?_ (fun x hx => hp.classes x ((sortTensors_perm ts).mem_iff.1 hx)) hp.opClasses
        · rw [labelsOf_perm (sortTensors_perm ts)]; exact h1
        · rw [labelsOf_perm (sortTensors_perm ts)]; exact h2
      exact ((hsort hp hf1 hf2).symm.trans hsame).trans (hsort hp' hf1' hf2')
  · intro i hi
    by_cases hv : (removeActive && ts.any (allActiveAmplitude id)) = true
    · rw [if_pos hv] at hf
      rw [hf.2.1, hf.2.2] at hi
      simp [mem_labelsOf, labelList, IndicesPair.void] at hi
    · rw [if_neg hv] at hf
      rw [hf.2.1, hf.2.2] at hi ⊢
      rw [labelsOf_relabel, labelsOf_perm (sortTensors_perm ts)] at hi
      obtain ⟨j, hj, rfl⟩ := Finset.mem_image.1 hi
      obtain ⟨-, h2, -, -⟩ := Term.make_ok.1 ht
      rw [mem_labelsOf] at hj
      rw [occurrences_eq, labelList_relabel, ((labelList_perm (sortTensors_perm ts) op).map f).count_eq, count_map_injOn ?_ hj]
      · exact h2 j hj (by rw [hdiag hp]; simp)
      · intro a ha b hb e
        exact hf1 a (mem_labelsOf.2 ha) b (mem_labelsOf.2 hb) e

/-- Unless it is zero, the result differs from the term in notation only. -/
theorem C85_result (canon : List Nat → List (Nat × Nat) → List SlotGroup → Option (List Nat)) (hcanon : CanonContract canon) (ord : SetOrder)
    (hord : ord.Lawful) (core removeActive hermitian : Bool) (ts : List Tensor) (op : SqOp) (c : ℚ) (t r : Term) (ht : Term.make ts op c = .ok t)
    (hp : PlainProduct ts op) (hprio : ∀ x ∈ ts, ∀ y ∈ ts, x.name = y.name → x.priority = y.priority)
    (hr : t.canonicalizeSympy canon ord core removeActive hermitian = .ok r) (h0 : r.coeff ≠ 0) :
    SameUpToNotation hermitian c ts op r.coeff r.tensors r.sqOp := by
  rw [canonicalizeSympy_eq] at hr
  obtain ⟨s, hs, hr⟩ := bind_ok hr
  have hvoid : s.isVoid = false := by
    by_contra hv
    rw [Bool.not_eq_false] at hv
    unfold sympyTail at hr
    rw [if_pos hv] at hr
    exact h0 ((congrArg Term.coeff (Except.ok.inj hr)).symm)
  have hdiag : diagonalOf ts op = ∅ := by
    refine Finset.eq_empty_of_forall_notMem fun i hi => ?_
    rcases mem_diagonalOf.1 hi with hi | ⟨x, hx, hi⟩
    · obtain ⟨h1, h2⟩ := hi; exact hp.opApart i h1 h2
    · obtain ⟨h1, h2⟩ := hi; exact hp.apart x hx i h1 h2
  obtain ⟨f, hf1, hf2, hf⟩ := Term.simplify_plain hord ht hs hp.delta (fun x hx hc i hi => hp.active x hx hc i (List.mem_append.1 hi)) hdiag
  by_cases hv : (removeActive && ts.any (allActiveAmplitude id)) = true
  · rw [if_pos hv] at hf
    simp [Term.isVoid, hf.1] at hvoid
  rw [if_neg hv] at hf
  have h1 : SameUpToNotation hermitian c ts op s.coeff s.tensors s.sqOp := by
    rw [hf.1, hf.2.1, hf.2.2]
    refine Relation.ReflTransGen.head (b := (c, sortTensors ts, op)) (Rewrites.reorder c ts (sortTensors ts) op (sortTensors_perm ts).symm) ?_
    refine SameUpToNotation.relabel c ?_ ?_ (fun x hx => hp.classes x ((sortTensors_perm ts).mem_iff.1 hx)) hp.opClasses
    · rw [labelsOf_perm (sortTensors_perm ts)]; exact hf1
    · rw [labelsOf_perm (sortTensors_perm ts)]; exact hf2
  have horig : ∀ y ∈ s.tensors, ∃ x ∈ ts, y = x.relabel f := by
    intro y hy
    rw [hf.2.1] at hy
    obtain ⟨x, hx, rfl⟩ := List.mem_map.1 hy
    exact ⟨x, (sortTensors_perm ts).mem_iff.1 hx, rfl⟩
  obtain ⟨hb, hty, -, htys⟩ := Term.simplify_kinds ht hs hp.opBalanced hp.kind
  refine h1.trans (sympyTail_back hcanon (Term.simplify_shape (Term.wf_of_make ht).set_sub hs).1 (by rw [hty]; exact hp.antisym) htys ?_ ?_ hb ?_ hvoid hr)
  · intro y hy
    obtain ⟨x, hx, rfl⟩ := horig y hy
    simpa [Tensor.relabel, Tensor.upper, Tensor.lower, IndicesPair.relabel] using hp.classes x hx
  · rw [hf.2.2]
    simpa [IndicesPair.relabel] using hp.opClasses
  · intro y hy z hz e
    obtain ⟨x, hx, rfl⟩ := horig y hy
    obtain ⟨w, hw, rfl⟩ := horig z hz
    exact ⟨hp.kind x hx w hw e, hprio x hx w hw e⟩

/-- Two terms that get the same result differ in notation only, unless the result is zero. -/
theorem C85_converse (canon : List Nat → List (Nat × Nat) → List SlotGroup → Option (List Nat)) (hcanon : CanonContract canon)
    (ord ord' : SetOrder) (hord : ord.Lawful) (hord' : ord'.Lawful) (core removeActive hermitian : Bool)
    (ts ts' : List Tensor) (op op' : SqOp) (c c' : ℚ) (t t' r : Term) (ht : Term.make ts op c = .ok t) (ht' : Term.make ts' op' c' = .ok t')
    (hp : PlainProduct ts op) (hp' : PlainProduct ts' op') (hprio : ∀ x ∈ ts, ∀ y ∈ ts, x.name = y.name → x.priority = y.priority)
    (hprio' : ∀ x ∈ ts', ∀ y ∈ ts', x.name = y.name → x.priority = y.priority) (h0 : r.coeff ≠ 0)
    (hr : t.canonicalizeSympy canon ord core removeActive hermitian = .ok r)
    (hr' : t'.canonicalizeSympy canon ord' core removeActive hermitian = .ok r) : SameUpToNotation hermitian c ts op c' ts' op' :=
  (C85_result canon hcanon ord hord core removeActive hermitian ts op c t r ht hp hprio hr h0).trans
    (C85_result canon hcanon ord' hord' core removeActive hermitian ts' op' c' t' r ht' hp' hprio' hr' h0).symm

/-! #### A case that meets the hypotheses -/

theorem sympy_run {canon : List Nat → List (Nat × Nat) → List SlotGroup → Option (List Nat)} (hcanon : CanonContract canon) {ts : List Tensor}
    {op : SqOp} {c : ℚ} {core removeActive : Bool} (hermitian : Bool) (hsound : SoundTerm ts op)
    (hkind : ∀ x ∈ ts, ∀ y ∈ ts, x.name = y.name → x.cls = y.cls)
    (hrun : (match Term.make ts op c >>= fun t => t.simplify SetOrder.sorted core removeActive with
      | .ok s => decide (s.isVoid = false ∧ s.tensors = ts ∧ s.sqOp = op) | .error _ => false) = true) :
    ∃ t r, Term.make ts op c = .ok t ∧ t.canonicalizeSympy canon SetOrder.sorted core removeActive hermitian = .ok r ∧ r.coeff ≠ 0 := by
  cases ht : Term.make ts op c with
  | error e => rw [ht] at hrun; simp [bind, Except.bind] at hrun
  | ok t =>
  rw [ht] at hrun
  simp only [bind, Except.bind] at hrun
  cases hs : t.simplify SetOrder.sorted core removeActive with
  | error e => rw [hs] at hrun; simp at hrun
  | ok s =>
  rw [hs] at hrun
  simp only [decide_eq_true_eq] at hrun
  obtain ⟨h0, h1, h2⟩ := hrun
  obtain ⟨names, v, gc, op', ts', k1, k2, k3, k4, k5, k6, k7⟩ := Term.sympy_total rfl hcanon hermitian
    (Term.simplify_shape (Term.wf_of_make ht).set_sub hs).1 (by rw [h1, h2]; exact hsound) (by rw [h1]; exact hkind)
  obtain ⟨r, hr, -⟩ := k7 ((if (names ++ [names.length, names.length + 1]).getLastD 0 ≠ gc.getLastD 0 then -1 else 1) * s.coeff)
  refine ⟨t, r, rfl, ?_, ?_⟩
  swap
  · have hs0 : s.coeff ≠ 0 := by
      intro e
      simp [Term.isVoid, e] at h0
    obtain ⟨-, -, -, rfl⟩ := Term.make_ok.1 hr
    show _ * s.coeff ≠ 0
    refine mul_ne_zero ?_ hs0
    split_ifs <;> norm_num
  unfold Term.canonicalizeSympy
  rw [bind_ok_of hs, if_neg (by simp [h0])]
  simp only []
  rw [bind_ok_of k1, bind_ok_of k2, if_pos k3, k4]
  simp only []
  rw [bind_ok_of k5, bind_ok_of k6, hr]

/-- `H^{v0,v1}_{c0,c1} T^{c0}_{v0} T^{c1}_{v1}`. -/
def doublesProduct : List Tensor :=
  [soTensor .hamiltonian 'H' 0 [lab .v 0, lab .v 1] [lab .c 0, lab .c 1], soTensor .cluster 'T' 1 [lab .c 0] [lab .v 0],
    soTensor .cluster 'T' 1 [lab .c 1] [lab .v 1]]

/-- `H^{v1,v0}_{c0,c1} T^{c0}_{v0} T^{c1}_{v1}`. -/
def doublesSwapped : List Tensor :=
  [soTensor .hamiltonian 'H' 0 [lab .v 1, lab .v 0] [lab .c 0, lab .c 1], soTensor .cluster 'T' 1 [lab .c 0] [lab .v 0],
    soTensor .cluster 'T' 1 [lab .c 1] [lab .v 1]]

theorem doubles_same : SameUpToNotation true 1 doublesProduct (soOp [] []) (-1) doublesSwapped (soOp [] []) :=
  .single (Rewrites.upper 1 [] _ _ _ [] [] (lab .v 0) (lab .v 1) rfl)

theorem doubles_sound (ts : List Tensor) (h : ts = doublesProduct ∨ ts = doublesSwapped) : SoundTerm ts (soOp [] []) := by
  have hh : ∀ n, ClusterHalf ([lab .c n].map Index.space) ∧ ClusterHalf ([lab .v n].map Index.space) := by
    intro n
    have h0 : lab .c n = ⟨⟨.c, false⟩, n⟩ := rfl
    have h1 : lab .v n = ⟨⟨.v, false⟩, n⟩ := rfl
    have a1 : ¬ holeKind .v := by unfold holeKind; decide +kernel
    have a2 : ¬ partKind .c := by unfold partKind; decide +kernel
    refine ⟨⟨?_, ?_⟩, ⟨?_, ?_⟩⟩
    · rintro ⟨-, s, hs, hk⟩; simp [h0] at hs; subst hs; exact a2 hk
    · intro s hs; simp [h0] at hs; subst hs; decide
    · rintro ⟨⟨s, hs, hk⟩, -⟩; simp [h1] at hs; subst hs; exact a1 hk
    · intro s hs; simp [h1] at hs; subst hs; decide
  refine ⟨?_, rfl, rfl, rfl, ?_, ?_, ?_⟩
  · rcases h with rfl | rfl
    · intro x hx
      simp only [doublesProduct, List.mem_cons, List.not_mem_nil, or_false] at hx
      rcases hx with rfl | rfl | rfl
      · exact ⟨rfl, rfl, rfl, by decide, by decide, (fun hc => by cases hc), fun h => absurd rfl h⟩
      · exact ⟨rfl, rfl, rfl, by decide, by decide, fun _ => hh 0, fun h => absurd rfl h⟩
      · exact ⟨rfl, rfl, rfl, by decide, by decide, fun _ => hh 1, fun h => absurd rfl h⟩
    · intro x hx
      simp only [doublesSwapped, List.mem_cons, List.not_mem_nil, or_false] at hx
      rcases hx with rfl | rfl | rfl
      · exact ⟨rfl, rfl, rfl, by decide, by decide, (fun hc => by cases hc), fun h => absurd rfl h⟩
      · exact ⟨rfl, rfl, rfl, by decide, by decide, fun _ => hh 0, fun h => absurd rfl h⟩
      · exact ⟨rfl, rfl, rfl, by decide, by decide, fun _ => hh 1, fun h => absurd rfl h⟩
  · rcases h with rfl | rfl <;> decide
  · rcases h with rfl | rfl <;> decide
  · rcases h with rfl | rfl
    · exact ⟨(termBlocks doublesProduct (soOp [] [])).map fun b => (false, b), by simp, by decide⟩
    · exact ⟨(termBlocks doublesSwapped (soOp [] [])).map fun b => (false, b), by simp, by decide⟩

theorem doubles_plain (ts : List Tensor) (h : ts = doublesProduct ∨ ts = doublesSwapped) : PlainProduct ts (soOp [] []) := by
  rcases h with rfl | rfl
  · exact ⟨by decide, fun x hx hc => absurd hc ((by decide : ∀ x ∈ doublesProduct, x.cls ≠ TCls.cumulant) x hx), by decide, by decide, by decide, rfl, by decide, by decide, rfl, rfl⟩
  · exact ⟨by decide, fun x hx hc => absurd hc ((by decide : ∀ x ∈ doublesSwapped, x.cls ≠ TCls.cumulant) x hx), by decide, by decide, by decide, rfl, by decide, by decide, rfl, rfl⟩

/-- `H^{v0,v1}_{c0,c1} T^{c0}_{v0} T^{c1}_{v1}` and `-H^{v1,v0}_{c0,c1} T^{c0}_{v0} T^{c1}_{v1}` are brought to one form. -/
theorem C85_example : ∃ (canon : List Nat → List (Nat × Nat) → List SlotGroup → Option (List Nat)) (ts ts' : List Tensor) (op : SqOp) (t t' r : Term),
    CanonContract canon ∧ CanonUnique canon ∧ Term.make ts op 1 = .ok t ∧ Term.make ts' op (-1) = .ok t' ∧ ts ≠ ts' ∧ PlainProduct ts op ∧
    PlainProduct ts' op ∧ SameUpToNotation true 1 ts op (-1) ts' op ∧ t.canonicalizeSympy canon SetOrder.sorted true true true = .ok r ∧
    t'.canonicalizeSympy canon SetOrder.sorted true true true = .ok r ∧ r.coeff ≠ 0 ∧
    (∀ x ∈ ts, ∀ y ∈ ts, x.name = y.name → x.priority = y.priority) := by
  obtain ⟨t, r, h1, h2, -⟩ := sympy_run (c := 1) (core := true) (removeActive := true) chosenCanon_contract true (doubles_sound _ (.inl rfl)) (by decide)
    (by decide +kernel)
  obtain ⟨t', r', h1', h2', h3'⟩ := sympy_run (c := -1) (core := true) (removeActive := true) chosenCanon_contract true (doubles_sound _ (.inr rfl)) (by decide)
    (by decide +kernel)
  have e := C85_plain_terms chosenCanon chosenCanon_contract chosenCanon_unique SetOrder.sorted SetOrder.sorted SetOrder.sorted_lawful SetOrder.sorted_lawful
    true true true _ _ _ _ _ _ t t' r r' h1 h1' (doubles_plain _ (.inl rfl)) (doubles_plain _ (.inr rfl)) doubles_same h2 h2'
  subst e
  exact ⟨chosenCanon, _, _, _, t, t', r', chosenCanon_contract, chosenCanon_unique, h1, h1', by decide, doubles_plain _ (.inl rfl),
    doubles_plain _ (.inr rfl), doubles_same, h2, h2', h3', by decide⟩

/-- `canonicalize_simple` does not give a canonical form: it keeps these two apart. -/
theorem C85_simple_is_not_canonical : ∃ (ts ts' : List Tensor) (op : SqOp) (t t' r r' : Term), Term.make ts op 1 = .ok t ∧
    Term.make ts' op (-1) = .ok t' ∧ PlainProduct ts op ∧ PlainProduct ts' op ∧ SameUpToNotation true 1 ts op (-1) ts' op ∧
    t.canonicalizeSimple SetOrder.sorted true true = .ok r ∧ t'.canonicalizeSimple SetOrder.sorted true true = .ok r' ∧ r.tensors ≠ r'.tensors := by
  have hrun : (match Term.make doublesProduct (soOp [] []) 1, Term.make doublesSwapped (soOp [] []) (-1) with
      | .ok t, .ok t' => match t.canonicalizeSimple SetOrder.sorted true true, t'.canonicalizeSimple SetOrder.sorted true true with
        | .ok r, .ok r' => decide (r.tensors ≠ r'.tensors)
        | _, _ => false
      | _, _ => false) = true := by decide +kernel
  cases h1 : Term.make doublesProduct (soOp [] []) 1 with
  | error e => rw [h1] at hrun; simp at hrun
  | ok t =>
  cases h2 : Term.make doublesSwapped (soOp [] []) (-1) with
  | error e => rw [h1, h2] at hrun; simp at hrun
  | ok t' =>
  rw [h1, h2] at hrun
  simp only [] at hrun
  cases h3 : t.canonicalizeSimple SetOrder.sorted true true with
  | error e => rw [h3] at hrun; simp at hrun
  | ok r =>
  cases h4 : t'.canonicalizeSimple SetOrder.sorted true true with
  | error e => rw [h3, h4] at hrun; simp at hrun
  | ok r' =>
  rw [h3, h4] at hrun
  simp only [decide_eq_true_eq] at hrun
  exact ⟨_, _, _, t, t', r, r', h1, h2, doubles_plain _ (.inl rfl), doubles_plain _ (.inr rfl), doubles_same, h3, h4, hrun⟩

end Dsrg
