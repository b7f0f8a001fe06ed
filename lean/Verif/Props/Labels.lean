import Verif.Spec.Spaces
import Verif.Lemmas.Index
import Verif.Lemmas.MoSpace
import Verif.Model.Indices
import Mathlib.Data.Fintype.Powerset

/-!
Properties C01-C06: orbital-space labels and single indices.
-/

namespace Dsrg

/-! ### C01 find_space_label inverts the space relation -/

/-- The table `space_relation` lists, for every label, exactly the elementary labels of the same spin it stands for. -/
theorem C01_space_relation_table (s : Space) (t : Space) :
    t ∈ s.relation ↔ ∃ e : Elem, t = ⟨e.kind, s.beta⟩ ∧ s.kind.Denotes e := by
  revert s t; decide +kernel

/-- For every list of labels with a non-empty common content, `find_space_label` applied to that content (whatever
element the set iteration returns first) returns a label whose content is exactly the given set. -/
theorem C01_find_space_label_intersection (s : Space) (L : List Space) (first : Space)
    (hfirst : first ∈ L.foldl (fun acc t => acc ∩ t.relation) s.relation) :
    ∃ r : Space, findSpaceLabel (L.foldl (fun acc t => acc ∩ t.relation) s.relation) first = .ok (some r) ∧
      r.relation = L.foldl (fun acc t => acc ∩ t.relation) s.relation := by
  rcases foldl_inter L s with h | ⟨r, h⟩
  · rw [h] at hfirst; simp at hfirst
  · rw [h] at hfirst ⊢
    exact ⟨r, findSpaceLabel_relation r first hfirst, rfl⟩

/-- For every non-empty set of elementary labels of one spin, other than {core, virtual}, the returned label stands
for exactly that set. -/
theorem C01_find_space_label_elementary_partial (b : Bool) (S : Finset Elem) (hS : S.Nonempty)
    (hcv : S ≠ {.core, .virt}) (first : Space) (hfirst : first ∈ S.image fun e => (⟨e.kind, b⟩ : Space)) :
    ∃ r : Space, findSpaceLabel (S.image fun e => (⟨e.kind, b⟩ : Space)) first = .ok (some r) ∧
      ∀ e, r.kind.Denotes e ↔ e ∈ S := by
  revert b S first; decide +kernel

/-- The empty set raises `ValueError`. -/
theorem C01_find_space_label_empty (first : Space) : findSpaceLabel ∅ first = .error .valueError := rfl

/-- For {core, virtual} the answer is `p`, which does not stand for that set. -/
theorem C01_violation_core_virtual (first : Space) (h : first ∈ ({⟨.c, false⟩, ⟨.v, false⟩} : Finset Space)) :
    findSpaceLabel {⟨.c, false⟩, ⟨.v, false⟩} first = .ok (some ⟨.p, false⟩) ∧
      (⟨.p, false⟩ : Space).relation ≠ {⟨.c, false⟩, ⟨.v, false⟩} := by
  revert first; decide +kernel

/-- A set of two labels without core or virtual (one per spin) falls through: python returns `None`. -/
theorem C01_violation_returns_none (first : Space) :
    findSpaceLabel {⟨.a, false⟩, ⟨.a, true⟩} first = .ok none := by
  revert first; decide +kernel

example : (⟨.a, true⟩ : Space) ∈
    [(⟨.p, true⟩ : Space), ⟨.h, true⟩].foldl (fun acc t => acc ∩ t.relation) (⟨.g, true⟩ : Space).relation := by decide
example : ({.core, .active} : Finset Elem).Nonempty ∧ ({.core, .active} : Finset Elem) ≠ {.core, .virt} ∧
    (⟨.c, true⟩ : Space) ∈ ({.core, .active} : Finset Elem).image fun e => (⟨e.kind, true⟩ : Space) := by decide

/-! ### C02 MOSpaceCounter comparison -/

/-- The overall scaling is the total count, and the parsed counts charge v, p, g to virtual, c, h to core and a to
active (in the order virtual, core, active). -/
theorem C02_scaling (items : List (Space × Int)) :
    (MOSpaceCounter.make items).overall = (items.map (·.2)).sum ∧
    (MOSpaceCounter.make items).parsed =
      [((items.filter fun kv => decide (kv.1.kind ∈ [Kind.v, .g, .p])).map (·.2)).sum,
       ((items.filter fun kv => decide (kv.1.kind ∈ [Kind.c, .h])).map (·.2)).sum,
       ((items.filter fun kv => decide (kv.1.kind ∈ [Kind.a])).map (·.2)).sum] := by
  refine ⟨mosParse_sum items, ?_⟩
  show [(mosParse items).1, (mosParse items).2.1, (mosParse items).2.2] = _
  rw [mosParse_eq]; rfl

/-- `<` is irreflexive, transitive and total up to equal (scaling, virtual, core, active) counts; the four comparison
methods are consistent with each other. -/
theorem C02_order (x y z : MOSpaceCounter) :
    x.pyLt x = false ∧
    (x.pyLt y = true → y.pyLt z = true → x.pyLt z = true) ∧
    (x.pyLt y = true ∨ (x.overall = y.overall ∧ x.parsed = y.parsed) ∨ y.pyLt x = true) ∧
    (x.pyLe y = !y.pyLt x) ∧ (x.pyGt y = y.pyLt x) ∧ (x.pyGe y = !x.pyLt y) := by
  refine ⟨pyListLt_irrefl _, pyListLt_trans, ?_, pyListLe_iff _ _, rfl, pyListLe_iff _ _⟩
  rcases pyListLt_trichotomy x.key y.key with h | h | h
  · exact Or.inl h
  · simp only [MOSpaceCounter.key, List.cons.injEq] at h
    exact Or.inr (Or.inl h)
  · exact Or.inr (Or.inr h)

/-- `<` compares first the overall scaling, then virtual, then core, then active counts. -/
theorem C02_lt_lexicographic (xs ys : List (Space × Int)) (v c a v' c' a' : Int)
    (hx : (MOSpaceCounter.make xs).parsed = [v, c, a]) (hy : (MOSpaceCounter.make ys).parsed = [v', c', a']) :
    (MOSpaceCounter.make xs).pyLt (MOSpaceCounter.make ys) = true ↔
      v + c + a < v' + c' + a' ∨ (v + c + a = v' + c' + a' ∧ (v < v' ∨ (v = v' ∧ c < c'))) := by
  have hox : (MOSpaceCounter.make xs).overall = v + c + a := by
    simp only [MOSpaceCounter.make] at hx ⊢
    simp at hx; rw [← hx.1, ← hx.2.1, ← hx.2.2]
  have hoy : (MOSpaceCounter.make ys).overall = v' + c' + a' := by
    simp only [MOSpaceCounter.make] at hy ⊢
    simp at hy; rw [← hy.1, ← hy.2.1, ← hy.2.2]
  rw [MOSpaceCounter.pyLt, MOSpaceCounter.key, MOSpaceCounter.key, hx, hy, hox, hoy]
  simp only [pyListLt]
  split_ifs <;> simp <;> omega

/-- Counters that compare `==` have the same scaling and neither is `<` the other, provided no orbital class is
listed for both spins. -/
theorem C02_eq_consistent_partial (xs ys : List (Space × Int)) (hx : (xs.map fun x => x.1.kind).Nodup)
    (hy : (ys.map fun x => x.1.kind).Nodup)
    (h : (MOSpaceCounter.make xs).pyEq (MOSpaceCounter.make ys) = true) :
    (MOSpaceCounter.make xs).overall = (MOSpaceCounter.make ys).overall ∧
    (MOSpaceCounter.make xs).pyLt (MOSpaceCounter.make ys) = false ∧
    (MOSpaceCounter.make ys).pyLt (MOSpaceCounter.make xs) = false := by
  have hraw : ∀ k, mosRaw xs k = mosRaw ys k := of_decide_eq_true h
  have hp : mosParse xs = mosParse ys := by
    rw [mosParse_eq, mosParse_eq]
    simp only [kindSum_eq_raw _ (by decide : [Kind.v, .g, .p].Nodup) _ hx,
      kindSum_eq_raw _ (by decide : [Kind.v, .g, .p].Nodup) _ hy,
      kindSum_eq_raw _ (by decide : [Kind.c, .h].Nodup) _ hx, kindSum_eq_raw _ (by decide : [Kind.c, .h].Nodup) _ hy,
      kindSum_eq_raw _ (by decide : [Kind.a].Nodup) _ hx, kindSum_eq_raw _ (by decide : [Kind.a].Nodup) _ hy, hraw]
  have hkey : (MOSpaceCounter.make xs).key = (MOSpaceCounter.make ys).key := by
    simp only [MOSpaceCounter.key, MOSpaceCounter.make, hp]
  refine ⟨?_, ?_, ?_⟩
  · simp only [MOSpaceCounter.make, hp]
  · rw [MOSpaceCounter.pyLt, hkey]; exact pyListLt_irrefl _
  · rw [MOSpaceCounter.pyLt, hkey]; exact pyListLt_irrefl _

/-- Without that proviso the claim fails: {c:1, C:2} == {c:2} although the scalings are 3 and 2. -/
theorem C02_violation_eq_scaling :
    let x := MOSpaceCounter.make [(⟨.c, false⟩, 1), (⟨.c, true⟩, 2)]
    let y := MOSpaceCounter.make [(⟨.c, false⟩, 2)]
    x.pyEq y = true ∧ x.overall ≠ y.overall ∧ y.pyLt x = true := by decide +kernel

/-- `a <= b` and `b <= a` do not give `a == b`: {h:1} and {c:1}. -/
theorem C02_violation_le_antisymm :
    let x := MOSpaceCounter.make [(⟨.h, false⟩, 1)]
    let y := MOSpaceCounter.make [(⟨.c, false⟩, 1)]
    x.pyLe y = true ∧ y.pyLe x = true ∧ x.pyEq y = false := by decide +kernel

example : (([(⟨.c, false⟩, 1), (⟨.v, true⟩, 2)] : List (Space × Int)).map fun x => x.1.kind).Nodup ∧
    (MOSpaceCounter.make [(⟨.c, false⟩, 1), (⟨.v, true⟩, 2)]).pyEq
      (MOSpaceCounter.make [(⟨.v, false⟩, 2), (⟨.c, true⟩, 1)]) = true := by decide +kernel
example : (MOSpaceCounter.make [(⟨.c, false⟩, 1), (⟨.v, true⟩, 2)]).parsed = [2, 1, 0] := by decide

/-! ### C03 Index accepts exactly the well-formed names -/

/-- The (ASCII) decimal digits. -/
def decimalDigits : List Char := ['0', '1', '2', '3', '4', '5', '6', '7', '8', '9']

theorem isDigitChar_iff_mem (ch : Char) : isDigitChar ch = true ↔ ch ∈ decimalDigits := by
  constructor
  · intro h
    simp only [isDigitChar, Bool.and_eq_true, decide_eq_true_eq] at h
    have h1 : ch = Char.ofNat ch.toNat := by simp
    rw [h1]
    have h2 : ch.toNat - 48 < 10 := by omega
    have key : ∀ d : Fin 10, Char.ofNat (48 + d) ∈ decimalDigits := by decide
    have := key ⟨ch.toNat - 48, h2⟩
    rwa [show 48 + ((⟨ch.toNat - 48, h2⟩ : Fin 10) : Nat) = ch.toNat by simp; omega] at this
  · revert ch; decide

/-- `Index(name)` succeeds exactly when the name is one of the twelve letters followed by at least one digit, and then
it records the name, the letter's label and the decimal value of the digits. -/
theorem C03_parse_ok (name : PyStr) (i : NamedIndex) :
    NamedIndex.parse name = .ok i ↔
      ∃ letter digits, name = letter :: digits ∧ letter ∈ labelOrder ∧ digits ≠ [] ∧
        (∀ ch ∈ digits, ch ∈ decimalDigits) ∧
        i.name = name ∧ i.space.toChar = letter ∧
        i.number = Nat.ofDigits 10 ((digits.map fun ch => decimalDigits.idxOf ch).reverse) := by
  have hval : ∀ digits : PyStr, (∀ ch ∈ digits, ch ∈ decimalDigits) →
      intOfDigits digits = Nat.ofDigits 10 ((digits.map fun ch => decimalDigits.idxOf ch).reverse) := by
    intro digits hd
    rw [intOfDigits_eq_ofDigits]
    congr 2
    apply List.map_congr_left
    intro ch hch
    have : ∀ ch ∈ decimalDigits, ch.toNat - 48 = decimalDigits.idxOf ch := by decide
    exact this ch (hd ch hch)
  rw [NamedIndex.parse_ok]
  constructor
  · rintro ⟨s, ds, rfl, hds, rfl⟩
    simp only [isDigitStr, Bool.and_eq_true, List.all_eq_true] at hds
    have hd : ∀ ch ∈ ds, ch ∈ decimalDigits := fun ch hch => (isDigitChar_iff_mem ch).1 (hds.2 ch hch)
    refine ⟨_, ds, rfl, ?_, ?_, hd, rfl, rfl, hval ds hd⟩
    · revert s; decide
    · rintro rfl; simp at hds
  · rintro ⟨letter, ds, rfl, -, hne, hd, h1, h2, h3⟩
    refine ⟨i.space, ds, by rw [h2], ?_, ?_⟩
    · simp only [isDigitStr, Bool.and_eq_true, List.all_eq_true]
      exact ⟨by cases ds <;> simp_all, fun ch hch => (isDigitChar_iff_mem ch).2 (hd ch hch)⟩
    · cases i; simp at h1 h3 ⊢; exact ⟨h1, by rw [h3, hval ds hd]⟩

/-- The empty string raises `IndexError`, every other malformed string `ValueError`. -/
theorem C03_parse_error (name : PyStr) (e : PyErr) (h : NamedIndex.parse name = .error e) :
    (name = [] ∧ e = .indexError) ∨ (name ≠ [] ∧ e = .valueError) := by
  cases name with
  | nil => left; simpa [NamedIndex.parse, eq_comm] using h
  | cons ch ds =>
    right
    refine ⟨by simp, ?_⟩
    simp only [NamedIndex.parse] at h
    split at h
    · simpa [eq_comm] using h
    · split at h
      · simp at h
      · simpa [eq_comm] using h

/-- Names built from a label and a number parse back to that label and number. -/
theorem C03_roundtrip (s : Space) (n : Nat) :
    ∃ i, NamedIndex.parse (Index.name ⟨s, n⟩) = .ok i ∧ i.space = s ∧ i.number = n :=
  ⟨_, NamedIndex.parse_name ⟨s, n⟩, rfl, rfl⟩

example : NamedIndex.parse ['A', '1', '2'] = .ok ⟨['A', '1', '2'], ⟨.a, true⟩, 12⟩ := by decide
example : NamedIndex.parse ['x', '1'] = .error .valueError ∧ NamedIndex.parse ['g'] = .error .valueError := by decide

/-! ### C04 Index comparison -/

/-- `<` compares the position of the letter in `g p h v c a G P H V C A`, then the number. -/
theorem C04_lt_spec (i j : Index) :
    i.pyLt j = true ↔
      labelOrder.idxOf i.space.toChar < labelOrder.idxOf j.space.toChar ∨
      (i.space.toChar = j.space.toChar ∧ i.number < j.number) := by
  rw [Index.pyLt_iff, Index.lt_iff]
  have key : ∀ s : Space, s.priority = labelOrder.idxOf s.toChar := by decide
  rw [← key, ← key]
  constructor
  · rintro (h | ⟨h, h'⟩)
    · exact Or.inl h
    · exact Or.inr ⟨by rw [Space.priority_injective h], h'⟩
  · rintro (h | ⟨h, h'⟩)
    · exact Or.inl h
    · exact Or.inr ⟨by rw [Space.toChar_injective h], h'⟩

/-- The comparison methods form a total order consistent with equality of (space, number). -/
theorem C04_total_order (i j k : Index) :
    (i.pyLe i = true) ∧ (i.pyLe j = true → j.pyLe k = true → i.pyLe k = true) ∧
    (i.pyLe j = true → j.pyLe i = true → i = j) ∧ (i.pyLe j = true ∨ j.pyLe i = true) ∧
    (i.pyLt j = true ↔ i.pyLe j = true ∧ i ≠ j) ∧ (i.pyGt j = j.pyLt i) ∧ (i.pyGe j = j.pyLe i) := by
  simp only [Index.pyLe_iff, Index.pyLt_iff]
  refine ⟨le_refl i, le_trans, le_antisymm, le_total i j, lt_iff_le_and_ne, ?_, rfl⟩
  rfl

/-- Equality of the objects is equality of letter and number. -/
theorem C04_eq_spec (i j : NamedIndex) : i.pyEq j = true ↔ i.toIndex = j.toIndex := by
  simp [NamedIndex.pyEq, NamedIndex.toIndex]

example : (⟨⟨.v, false⟩, 7⟩ : Index).pyLt ⟨⟨.c, false⟩, 0⟩ = true ∧ (⟨⟨.a, false⟩, 3⟩ : Index).pyLt ⟨⟨.g, true⟩, 0⟩ = true := by
  decide

/-! ### C05 Equal indices hash equally -/

/-- For names as the package writes them (a label followed by the decimal form of the number), equal indices hash
equally. -/
theorem C05_eq_hash_partial (i j : Index) (x y : NamedIndex) (hx : NamedIndex.parse i.name = .ok x)
    (hy : NamedIndex.parse j.name = .ok y) (h : x.pyEq y = true) : x.hashKey = y.hashKey := by
  rw [NamedIndex.parse_name] at hx hy
  simp only [Except.ok.injEq] at hx hy
  subst hx hy
  simp only [NamedIndex.pyEq, Bool.and_eq_true, beq_iff_eq] at h
  simp only [NamedIndex.hashKey, Index.name, h.1, h.2]

theorem setSize_le (l : List NamedIndex) : setSize l ≤ l.length := by
  induction l with
  | nil => simp [setSize]
  | cons i l ih =>
    rw [setSize]; split <;> simp <;> omega

theorem setSize_eq_iff (l : List NamedIndex) :
    setSize l = l.length ↔ l.Pairwise fun i j => ¬ (j.sameSetElement i = true) := by
  induction l with
  | nil => simp [setSize]
  | cons i l ih =>
    have := setSize_le l
    rw [setSize, List.pairwise_cons, ← ih]
    split
    · rename_i h
      rw [List.any_eq_true] at h
      obtain ⟨j, hj, hji⟩ := h
      simp only [List.length_cons]
      constructor
      · intro h; omega
      · rintro ⟨h, -⟩; exact absurd hji (h j hj)
    · rename_i h
      simp only [List.length_cons, Nat.add_right_cancel_iff]
      constructor
      · intro h'
        refine ⟨fun j hj hji => h (List.any_eq_true.2 ⟨j, hj, hji⟩), h'⟩
      · exact fun h' => h'.2

theorem mapM_parse_names (l : List Index) :
    (l.map Index.name).mapM NamedIndex.parse = Except.ok (l.map fun i => ⟨i.name, i.space, i.number⟩) := by
  induction l with
  | nil => rfl
  | cons i l ih => simp [List.mapM_cons, NamedIndex.parse_name, ih]; rfl

/-- For such names the repeated-index test of `Indices` accepts exactly the lists without repeats (and, for
spin-orbital indices, without beta labels). -/
theorem C05_repeat_test_partial (ty : IType) (l : List Index) :
    (Indices.ofNames ty (l.map Index.name) = .ok ⟨ty, l⟩ ↔
      l.Nodup ∧ (ty = .spinOrbital → ∀ i ∈ l, i.isBeta = false)) ∧
    ((¬ l.Nodup) → Indices.ofNames ty (l.map Index.name) = .error .valueError) := by
  have hset : setSize (l.map fun i => (⟨i.name, i.space, i.number⟩ : NamedIndex)) =
      (l.map fun i => (⟨i.name, i.space, i.number⟩ : NamedIndex)).length ↔ l.Nodup := by
    rw [setSize_eq_iff, List.pairwise_map, List.Nodup]
    have : ∀ i j : Index, (¬ (NamedIndex.sameSetElement ⟨j.name, j.space, j.number⟩ ⟨i.name, i.space, i.number⟩ = true)) ↔
        i ≠ j := by
      intro i j
      simp only [NamedIndex.sameSetElement, NamedIndex.hashKey, NamedIndex.pyEq, Bool.and_eq_true, beq_iff_eq, ne_eq]
      apply not_congr
      constructor
      · rintro ⟨h, -⟩; exact (Index.name_injective h).symm
      · rintro rfl; simp
    simp only [this]
  have hmap : (l.map fun i => (⟨i.name, i.space, i.number⟩ : NamedIndex)).map NamedIndex.toIndex = l := by
    rw [List.map_map]
    conv_rhs => rw [← List.map_id l]
    rfl
  have hbeta : (l.map fun i => (⟨i.name, i.space, i.number⟩ : NamedIndex)).any NamedIndex.isBeta = l.any Index.isBeta := by
    rw [List.any_map]; rfl
  constructor
  · simp only [Indices.ofNames, mapM_parse_names]
    by_cases hn : l.Nodup
    · rw [show (Except.ok (l.map fun i => (⟨i.name, i.space, i.number⟩ : NamedIndex)) : Except PyErr _) = pure _ from rfl]
      rw [pure_bind]
      rw [if_neg (not_not.2 (hset.2 hn)), hmap, hbeta]
      cases ty <;> simp [hn, pure, Except.pure]
    · rw [show (Except.ok (l.map fun i => (⟨i.name, i.space, i.number⟩ : NamedIndex)) : Except PyErr _) = pure _ from rfl]
      rw [pure_bind, if_pos (fun h => hn (hset.1 h))]
      simp [hn, throw, throwThe, MonadExceptOf.throw, bind, Except.bind]
  · intro hn
    simp only [Indices.ofNames, mapM_parse_names]
    rw [show (Except.ok (l.map fun i => (⟨i.name, i.space, i.number⟩ : NamedIndex)) : Except PyErr _) = pure _ from rfl]
    rw [pure_bind, if_pos (fun h => hn (hset.1 h))]
    rfl

/-- `g1` and `g01` compare equal but hash differently, so `Indices(["g1", "g01"])` is accepted. -/
theorem C05_violation_leading_zero :
    ∃ x y, NamedIndex.parse ['g', '1'] = .ok x ∧ NamedIndex.parse ['g', '0', '1'] = .ok y ∧
      x.pyEq y = true ∧ x.hashKey ≠ y.hashKey ∧
      Indices.ofNames .antisym [['g', '1'], ['g', '0', '1']] = .ok ⟨.antisym, [⟨⟨.g, false⟩, 1⟩, ⟨⟨.g, false⟩, 1⟩]⟩ :=
  ⟨⟨['g', '1'], ⟨.g, false⟩, 1⟩, ⟨['g', '0', '1'], ⟨.g, false⟩, 1⟩, by decide +kernel⟩

example : Indices.ofNames .spinOrbital (([⟨⟨.a, false⟩, 0⟩, ⟨⟨.g, false⟩, 12⟩] : List Index).map Index.name) =
    .ok ⟨.spinOrbital, [⟨⟨.a, false⟩, 0⟩, ⟨⟨.g, false⟩, 12⟩]⟩ := by decide +kernel

/-! ### C06 Spin flips -/

/-- For every index object, `to_beta` / `to_alpha` succeed, keep class and number and set the spin; flipping back an
alpha (beta) index restores the very same object, name included. -/
theorem C06_flips (name : PyStr) (i : NamedIndex) (h : NamedIndex.parse name = .ok i) :
    ∃ b a, i.toBeta = .ok b ∧ i.toAlpha = .ok a ∧
      b.isBeta = true ∧ a.isBeta = false ∧
      b.space.kind = i.space.kind ∧ a.space.kind = i.space.kind ∧
      b.number = i.number ∧ a.number = i.number ∧
      (i.isBeta = false → a = i ∧ b.toAlpha = .ok i) ∧ (i.isBeta = true → b = i ∧ a.toBeta = .ok i) := by
  rw [NamedIndex.parse_ok] at h
  obtain ⟨s, ds, rfl, hds, rfl⟩ := h
  have hu : ∀ t : Space, NamedIndex.parse ((t.toChar :: ds).map upperChar) =
      .ok ⟨Space.toChar ⟨t.kind, true⟩ :: ds, ⟨t.kind, true⟩, intOfDigits ds⟩ := by
    intro t
    rw [List.map_cons, upperChar_toChar, map_upper_digits hds, NamedIndex.parse_ok]
    exact ⟨_, ds, rfl, hds, rfl⟩
  have hl : ∀ t : Space, NamedIndex.parse ((t.toChar :: ds).map lowerChar) =
      .ok ⟨Space.toChar ⟨t.kind, false⟩ :: ds, ⟨t.kind, false⟩, intOfDigits ds⟩ := by
    intro t
    rw [List.map_cons, lowerChar_toChar, map_lower_digits hds, NamedIndex.parse_ok]
    exact ⟨_, ds, rfl, hds, rfl⟩
  refine ⟨_, _, hu s, hl s, rfl, rfl, rfl, rfl, rfl, rfl, ?_, ?_⟩
  · intro hb
    have hs : (⟨s.kind, false⟩ : Space) = s := by cases s; simp [NamedIndex.isBeta] at hb ⊢; exact hb
    refine ⟨by rw [hs], ?_⟩
    have := hl ⟨s.kind, true⟩
    simp only [hs] at this
    exact this
  · intro hb
    have hs : (⟨s.kind, true⟩ : Space) = s := by cases s; simp [NamedIndex.isBeta] at hb ⊢; exact hb
    refine ⟨by rw [hs], ?_⟩
    have := hu ⟨s.kind, false⟩
    simp only [hs] at this
    exact this

/-- The spin flips seen on the label alone (letter class, spin and number, whatever the name of the object). -/
theorem C06_labels (name : PyStr) (i b a : NamedIndex) (h : NamedIndex.parse name = .ok i) (hb : i.toBeta = .ok b) (ha : i.toAlpha = .ok a) :
    b.toIndex = i.toIndex.toBeta ∧ a.toIndex = i.toIndex.toAlpha := by
  obtain ⟨b', a', h1, h2, h3, h4, h5, h6, h7, h8, -⟩ := C06_flips name i h
  rw [hb] at h1
  rw [ha] at h2
  injection h1 with h1
  injection h2 with h2
  subst h1 h2
  obtain ⟨bn, ⟨bk, bs⟩, bnum⟩ := b
  obtain ⟨an, ⟨ak, as⟩, anum⟩ := a
  obtain ⟨n, ⟨k, s⟩, num⟩ := i
  simp only [NamedIndex.isBeta] at h3 h4 h5 h6 h7 h8
  subst h3 h4 h5 h6 h7 h8
  exact ⟨rfl, rfl⟩

/-- `is_beta` is true exactly for upper-case letters. -/
theorem C06_is_beta (i : Index) : i.isBeta = true ↔ i.space.toChar ∈ ['G', 'P', 'H', 'V', 'C', 'A'] := by
  obtain ⟨s, n⟩ := i
  show s.beta = true ↔ s.toChar ∈ _
  revert s; decide

example : ∃ i, NamedIndex.parse ['h', '0', '3'] = .ok i ∧ i.isBeta = false := ⟨_, rfl, rfl⟩

end Dsrg
