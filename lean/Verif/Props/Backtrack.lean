import Verif.Lemmas.Codes
import Verif.Props.Elementary
import Mathlib.Algebra.BigOperators.Group.Finset.Basic
import Mathlib.Data.Finset.Powerset

/-!
C26-C29, C36: codes, compatibility and the enumeration of composite contractions.
-/

namespace Dsrg

/-! ### C26 -/

/-- C26: with distinct categories, `decode` indexes the concatenation of the lists of all categories and `encode` is its
inverse: every (category, position) has a code below `size`, the code determines the category and the contraction, every
code below `size` belongs to exactly one (category, position), and `category_range` consists of the codes of its
category. -/
theorem C26_codes {α : Type} (x : EleCon α) (hn : x.cats.Nodup) :
    x.size = (x.cats.flatMap x.get).length ∧
    (∀ c ∈ x.cats, ∀ i e, (x.get c)[i]? = some e → ∃ code, x.encode c i = .ok code ∧ code < x.size ∧
      x.decode code = .ok e ∧ x.findCategory code = .ok c ∧ (x.cats.flatMap x.get)[code]? = some e) ∧
    (∀ code < x.size, ∃! p : List Nat × Nat, p.1 ∈ x.cats ∧ p.2 < (x.get p.1).length ∧ x.encode p.1 p.2 = .ok code) ∧
    (∀ c ∈ x.cats, ∃ r, x.categoryRange c = .ok r ∧ r.Nodup ∧
      ∀ code, (code ∈ r ↔ ∃ i, i < (x.get c).length ∧ x.encode c i = .ok code) ∧
        (code ∈ r ↔ code < x.size ∧ x.findCategory code = .ok c)) ∧
    (∀ c, c ∉ x.cats → ∀ i, x.encode c i = .error .keyError) := by
  have enc : ∀ {i c}, x.cats[i]? = some c → ∀ j, x.encode c j = .ok (x.before i + j) := by
    intro i c h j
    unfold EleCon.encode; rw [x.start_eq hn h]; rfl
  have fnd : ∀ {i c code}, x.cats[i]? = some c → x.before i ≤ code → code < x.before (i + 1) →
      x.findCategory code = .ok c := by
    intro i c code h h1 h2
    unfold EleCon.findCategory; rw [x.bisect h h1 h2, h]
  have uniq : ∀ {i c i' c' code}, x.cats[i]? = some c → x.before i ≤ code → code < x.before (i + 1) →
      x.cats[i']? = some c' → x.before i' ≤ code → code < x.before (i' + 1) → i = i' := by
    intro i c i' c' code h h1 h2 h' h1' h2'
    rw [← x.bisect h h1 h2, x.bisect h' h1' h2']
  refine ⟨x.length_flat.symm, ?_, ?_, ?_, ?_⟩
  · intro c hc j e he
    obtain ⟨i, hi⟩ := List.getElem?_of_mem hc
    have hj := lt_length_of_getElem? he
    have hs := x.before_succ hi
    have hb := x.bisect hi (show x.before i ≤ x.before i + j by omega) (by omega)
    have hle := x.before_le_size (i := i + 1) (lt_length_of_getElem? hi)
    refine ⟨x.before i + j, enc hi j, by omega, ?_, fnd hi (by omega) (by omega), ?_⟩
    · unfold EleCon.decode
      simp only [hb, hi]
      rw [List.getD_eq_getElem?_getD, x.iStart_getElem? (lt_length_of_getElem? hi)]
      simp [he]
    · rw [x.flat_getElem? hi hj, he]
  · intro code hcode
    obtain ⟨i, c, hi, h1, h2⟩ := x.exists_category hcode
    have hs := x.before_succ hi
    refine ⟨(c, code - x.before i), ⟨List.mem_of_getElem? hi, by simp only; omega, ?_⟩, ?_⟩
    · simp only [enc hi]; congr 1; omega
    · rintro ⟨c', j'⟩ ⟨hc', hj', he'⟩
      obtain ⟨i', hi'⟩ := List.getElem?_of_mem hc'
      simp only at hi' hj' he'
      rw [enc hi'] at he'
      have he'' : x.before i' + j' = code := by injection he'
      have hs' := x.before_succ hi'
      have : i = i' := uniq hi h1 h2 hi' (by omega) (by omega)
      subst this
      rw [hi] at hi'; cases hi'
      ext1 <;> simp only; omega
  · intro c hc
    obtain ⟨i, hi⟩ := List.getElem?_of_mem hc
    have hs := x.before_succ hi
    have hle := x.before_le_size (i := i + 1) (lt_length_of_getElem? hi)
    refine ⟨List.range' (x.before i) (x.get c).length, ?_, List.nodup_range', ?_⟩
    · unfold EleCon.categoryRange; rw [x.start_eq hn hi]; rfl
    · intro code
      rw [List.mem_range'_1]
      constructor
      · constructor
        · rintro ⟨h1, h2⟩
          refine ⟨code - x.before i, by omega, ?_⟩
          rw [enc hi]; congr 1; omega
        · rintro ⟨j, hj, he⟩
          rw [enc hi] at he; injection he; omega
      · constructor
        · rintro ⟨h1, h2⟩
          exact ⟨by omega, fnd hi h1 (by omega)⟩
        · rintro ⟨hcode, hf⟩
          obtain ⟨i', c', hi', h1', h2'⟩ := x.exists_category hcode
          rw [fnd hi' h1' h2'] at hf
          cases hf
          have e1 := (List.getElem?_eq_some_iff.1 hi)
          have e2 := (List.getElem?_eq_some_iff.1 hi')
          obtain ⟨l1, e1⟩ := e1
          obtain ⟨l2, e2⟩ := e2
          have := (List.Nodup.getElem_inj_iff hn).1 (e1.trans e2.symm)
          subst this
          omega
  · intro c hc j
    have : (x.cats.zip x.iStart).find? (fun p => decide (p.1 = c)) = none := by
      rw [List.find?_eq_none]
      intro p hp
      simp only [decide_eq_true_eq]
      intro h; subst h
      exact hc (List.of_mem_zip hp).1
    unfold EleCon.encode EleCon.start
    rw [this]; rfl

/-- Three categories, one of them empty. -/
example : let x : EleCon Char := ⟨[([0, 1], ['a', 'b']), ([1, 0], []), ([0, 0, 1, 1], ['c'])], [[0, 0, 1, 1], [1, 0], [0, 1]]⟩
    x.cats.Nodup ∧ x.size = 3 ∧ x.encode [0, 1] 1 = .ok 2 ∧ x.decode 2 = .ok 'b' ∧ x.findCategory 2 = .ok [0, 1] := by
  decide +kernel

/-! ### C27 -/

/-- The two contractions have no creation operator and no annihilation operator in common. -/
def ShareNothing (a b : Tensor) : Prop :=
  (∀ i ∈ a.upper.list, i ∉ b.upper.list) ∧ (∀ i ∈ a.lower.list, i ∉ b.lower.list)

instance (a b : Tensor) : Decidable (ShareNothing a b) := by unfold ShareNothing; infer_instance

theorem ShareNothing.symm {a b : Tensor} (h : ShareNothing a b) : ShareNothing b a :=
  ⟨fun i hi hi' => h.1 i hi' hi, fun i hi hi' => h.2 i hi' hi⟩

/-- All labels of the tensor are of the class `ty`. -/
def OfType (ty : IType) (t : Tensor) : Prop := t.upper.ty = ty ∧ t.lower.ty = ty

theorem anyOverlapped_eq {ty : IType} {a b : Tensor} (ha : OfType ty a) (hb : OfType ty b) :
    a.anyOverlapped b = .ok (!decide (ShareNothing a b)) := by
  obtain ⟨ha1, ha2⟩ := ha
  obtain ⟨hb1, hb2⟩ := hb
  unfold Tensor.anyOverlapped IndicesPair.checkOperand Indices.anyOverlap Indices.checkOperand
  rw [if_pos (ha1.trans hb1.symm), if_pos (ha2.trans hb2.symm)]
  simp only [bind, Except.bind, pure, Except.pure]
  by_cases h : (a.upper.list.any fun i => decide (i ∈ b.upper.list)) = true
  · rw [if_pos h]
    congr 1
    symm
    simp only [Bool.not_eq_eq_eq_not, Bool.not_true, decide_eq_false_iff_not]
    rintro ⟨h1, _⟩
    simp only [List.any_eq_true, decide_eq_true_eq] at h
    obtain ⟨i, hi, hi'⟩ := h
    exact h1 i hi hi'
  · rw [if_neg h]
    congr 1
    have h1 : ∀ i ∈ a.upper.list, i ∉ b.upper.list := by simpa using h
    rw [Bool.eq_iff_iff]
    simp only [List.any_eq_true, decide_eq_true_eq, Bool.not_eq_eq_eq_not, Bool.not_true, decide_eq_false_iff_not]
    unfold ShareNothing
    constructor
    · rintro ⟨i, hi, hi'⟩ ⟨_, h2⟩
      exact h2 i hi hi'
    · intro h2
      by_contra hcon
      apply h2
      refine ⟨h1, fun i hi hi' => hcon ⟨i, hi, hi'⟩⟩

/-- C27 for the list of the general mode: two different contractions are recorded as compatible, in both directions,
exactly when they share no operator. -/
theorem C27_compatible_list (ty : IType) (ts : List Tensor) (hts : ∀ t ∈ ts, OfType ty t) :
    ∃ rows, compatibleList ts = .ok rows ∧
      ∀ i j, (i, j) ∈ rows ↔ i ≠ j ∧ ∃ a b, ts[i]? = some a ∧ ts[j]? = some b ∧ ShareNothing a b := by
  unfold compatibleList
  have hpairs : ∀ ab ∈ (ts.zipIdx.flatMap fun a => (ts.zipIdx.drop (a.2 + 1)).map fun b => (a, b)),
      ab.1.1 ∈ ts ∧ ab.2.1 ∈ ts := by
    intro ab hab
    simp only [List.mem_flatMap, List.mem_map] at hab
    obtain ⟨a, ha, b, hb, rfl⟩ := hab
    exact ⟨List.fst_mem_of_mem_zipIdx ha, List.fst_mem_of_mem_zipIdx (List.mem_of_mem_drop hb)⟩
  rw [mapM_except_ok _ (fun ab => if ShareNothing ab.1.1 ab.2.1 then [(ab.1.2, ab.2.2), (ab.2.2, ab.1.2)] else [])]
  · refine ⟨_, rfl, ?_⟩
    intro i j
    simp only [List.mem_flatten, List.mem_map, List.mem_flatMap]
    constructor
    · rintro ⟨l, ⟨ab, ⟨a, ha, b, hb, rfl⟩, rfl⟩, hij⟩
      obtain ⟨a, k⟩ := a
      obtain ⟨b, m⟩ := b
      rw [List.mem_zipIdx_iff_getElem?] at ha
      have hb' := List.mem_of_mem_drop hb
      rw [List.mem_zipIdx_iff_getElem?] at hb'
      have hkm : k < m := by
        obtain ⟨q, hq⟩ := List.getElem?_of_mem hb
        rw [List.getElem?_drop, List.getElem?_zipIdx] at hq
        simp only [Option.map_eq_some_iff, Prod.mk.injEq] at hq
        obtain ⟨_, _, _, h⟩ := hq
        omega
      simp only at ha hb' hij
      split at hij
      · rename_i hs
        simp only [List.mem_cons, Prod.mk.injEq, List.not_mem_nil, or_false] at hij
        rcases hij with ⟨rfl, rfl⟩ | ⟨rfl, rfl⟩
        · exact ⟨by omega, a, b, ha, hb', hs⟩
        · exact ⟨by omega, b, a, hb', ha, hs.symm⟩
      · simp at hij
    · rintro ⟨hij, a, b, ha, hb, hs⟩
      have key : ∀ (k m : Nat) (a b : Tensor), k < m → ts[k]? = some a → ts[m]? = some b →
          ∃ x ∈ ts.zipIdx, ∃ y ∈ ts.zipIdx.drop (x.2 + 1), (x, y) = ((a, k), (b, m)) := by
        intro k m a b hkm ha hb
        refine ⟨(a, k), by rw [List.mem_zipIdx_iff_getElem?]; exact ha, (b, m), ?_, rfl⟩
        apply List.mem_of_getElem? (i := m - (k + 1))
        rw [List.getElem?_drop, List.getElem?_zipIdx]
        have hkm' : k + 1 + (m - (k + 1)) = m := by omega
        rw [hkm', hb]; simp
      rcases Nat.lt_or_ge i j with h | h
      · exact ⟨_, ⟨_, key i j a b h ha hb, rfl⟩, by simp [hs]⟩
      · exact ⟨_, ⟨_, key j i b a (by omega) hb ha, rfl⟩, by simp [hs.symm]⟩
  · intro ab hab
    obtain ⟨h1, h2⟩ := hpairs ab hab
    rw [anyOverlapped_eq (hts _ h1) (hts _ h2)]
    simp only [bind, Except.bind, pure, Except.pure]
    by_cases h : ShareNothing ab.1.1 ab.2.1 <;> simp [h]

/-- C27 for the categorised list of the connected mode: the codes of two contractions are recorded as compatible, in
both directions, exactly when the contractions share no operator; no code is recorded as compatible with itself. -/
theorem C27_compatible_categorized (ty : IType) (x : EleCon Tensor) (hn : x.cats.Nodup)
    (hts : ∀ c ∈ x.cats, ∀ t ∈ x.get c, OfType ty t) (hne : ∀ c ∈ x.cats, ∀ t ∈ x.get c, t.upper.list ≠ []) :
    ∃ rows, x.compatible = .ok rows ∧ (∀ i, (i, i) ∉ rows) ∧
      ∀ i j, (i, j) ∈ rows ↔ ∃ a b, i < x.size ∧ j < x.size ∧ x.decode i = .ok a ∧ x.decode j = .ok b ∧ ShareNothing a b := by
  obtain ⟨hsize, hcode, huniq, _, _⟩ := C26_codes x hn
  -- the code of a position
  have hex : ∀ p : List Nat × Nat, ∃ code, p.1 ∈ x.cats → ∀ e, (x.get p.1)[p.2]? = some e →
      x.encode p.1 p.2 = .ok code ∧ code < x.size ∧ x.decode code = .ok e := by
    intro p
    by_cases hp : p.1 ∈ x.cats ∧ p.2 < (x.get p.1).length
    · obtain ⟨code, h1, h2, h3, _⟩ := hcode p.1 hp.1 p.2 _ (List.getElem?_eq_getElem hp.2)
      refine ⟨code, fun _ e he => ⟨h1, h2, ?_⟩⟩
      rw [h3]; rw [List.getElem?_eq_getElem hp.2] at he; injection he with he; rw [he]
    · exact ⟨0, fun hc e he => absurd ⟨hc, lt_length_of_getElem? he⟩ hp⟩
  choose code hcd using hex
  have hdec : ∀ i, i < x.size → ∃ c k e, c ∈ x.cats ∧ (x.get c)[k]? = some e ∧ code (c, k) = i := by
    intro i hi
    obtain ⟨⟨c, k⟩, ⟨h1, h2, h3⟩, _⟩ := huniq i hi
    refine ⟨c, k, _, h1, List.getElem?_eq_getElem h2, ?_⟩
    have := (hcd (c, k) h1 _ (List.getElem?_eq_getElem h2)).1
    simp only at this h3
    rw [this] at h3; injection h3
  let pairs := x.cats.zipIdx.flatMap fun c1 => (x.get c1.1).zipIdx.flatMap fun a =>
      (x.cats.drop c1.2).flatMap fun c2 => (x.get c2).zipIdx.map fun b => ((c1.1, a), (c2, b))
  have hpairs : ∀ c a k d b m, ((c, (a, k)), (d, (b, m))) ∈ pairs → c ∈ x.cats ∧ (x.get c)[k]? = some a ∧
      d ∈ x.cats ∧ (x.get d)[m]? = some b := by
    intro c a k d b m h
    simp only [pairs, List.mem_flatMap, List.mem_map, Prod.mk.injEq] at h
    obtain ⟨c1, h1, a1, h2, c2, h3, b1, h4, ⟨rfl, rfl⟩, rfl, rfl⟩ := h
    rw [List.mem_zipIdx_iff_getElem?] at h2 h4
    exact ⟨List.fst_mem_of_mem_zipIdx h1, h2, List.mem_of_mem_drop h3, h4⟩
  have hpairs' : ∀ c a k d b m, c ∈ x.cats → (x.get c)[k]? = some a → d ∈ x.cats → (x.get d)[m]? = some b →
      ((c, (a, k)), (d, (b, m))) ∈ pairs ∨ ((d, (b, m)), (c, (a, k))) ∈ pairs := by
    intro c a k d b m hc ha hd hb
    obtain ⟨p, hp⟩ := List.getElem?_of_mem hc
    obtain ⟨q, hq⟩ := List.getElem?_of_mem hd
    have key : ∀ (p q : Nat) (c d : List Nat) (a b : Tensor) (k m : Nat), p ≤ q → x.cats[p]? = some c → x.cats[q]? = some d →
        (x.get c)[k]? = some a → (x.get d)[m]? = some b → ((c, (a, k)), (d, (b, m))) ∈ pairs := by
      intro p q c d a b k m hpq hp hq ha hb
      simp only [pairs, List.mem_flatMap, List.mem_map, Prod.mk.injEq]
      refine ⟨(c, p), by rw [List.mem_zipIdx_iff_getElem?]; exact hp, (a, k), by rw [List.mem_zipIdx_iff_getElem?]; exact ha, d, ?_,
        (b, m), by rw [List.mem_zipIdx_iff_getElem?]; exact hb, ⟨rfl, rfl⟩, rfl, rfl⟩
      apply List.mem_of_getElem? (i := q - p)
      rw [List.getElem?_drop]
      simp only [Nat.add_sub_cancel' hpq, hq]
    rcases Nat.le_total p q with h | h
    · exact Or.inl (key p q c d a b k m h hp hq ha hb)
    · exact Or.inr (key q p d c b a m k h hq hp hb ha)
  have hrows : x.compatible = .ok (pairs.map fun ab => if ShareNothing ab.1.2.1 ab.2.2.1 then
      [(code (ab.1.1, ab.1.2.2), code (ab.2.1, ab.2.2.2)), (code (ab.2.1, ab.2.2.2), code (ab.1.1, ab.1.2.2))] else []).flatten := by
    unfold EleCon.compatible
    rw [mapM_except_ok _ (fun ab => if ShareNothing ab.1.2.1 ab.2.2.1 then
      [(code (ab.1.1, ab.1.2.2), code (ab.2.1, ab.2.2.2)), (code (ab.2.1, ab.2.2.2), code (ab.1.1, ab.1.2.2))] else [])]
    · rfl
    · rintro ⟨⟨c, a, k⟩, d, b, m⟩ hab
      obtain ⟨h1, h2, h3, h4⟩ := hpairs c a k d b m hab
      have e1 := (hcd (c, k) h1 a h2).1
      have e2 := (hcd (d, m) h3 b h4).1
      simp only at e1 e2 ⊢
      rw [e1, anyOverlapped_eq (hts c h1 a (List.mem_of_getElem? h2)) (hts d h3 b (List.mem_of_getElem? h4))]
      simp only [bind, Except.bind, pure, Except.pure]
      by_cases h : ShareNothing a b
      · simp [h, e2]
      · simp [h]
  have hmem : ∀ i j, (i, j) ∈ (pairs.map fun ab => if ShareNothing ab.1.2.1 ab.2.2.1 then
      [(code (ab.1.1, ab.1.2.2), code (ab.2.1, ab.2.2.2)), (code (ab.2.1, ab.2.2.2), code (ab.1.1, ab.1.2.2))] else []).flatten ↔
      ∃ a b, i < x.size ∧ j < x.size ∧ x.decode i = .ok a ∧ x.decode j = .ok b ∧ ShareNothing a b := by
    intro i j
    simp only [List.mem_flatten, List.mem_map]
    constructor
    · rintro ⟨l, ⟨⟨⟨c, a, k⟩, d, b, m⟩, hab, rfl⟩, hij⟩
      obtain ⟨h1, h2, h3, h4⟩ := hpairs c a k d b m hab
      obtain ⟨-, l1, d1⟩ := hcd (c, k) h1 a h2
      obtain ⟨-, l2, d2⟩ := hcd (d, m) h3 b h4
      simp only at hij
      split at hij
      · rename_i hs
        simp only [List.mem_cons, Prod.mk.injEq, List.not_mem_nil, or_false] at hij
        rcases hij with ⟨rfl, rfl⟩ | ⟨rfl, rfl⟩
        · exact ⟨a, b, l1, l2, d1, d2, hs⟩
        · exact ⟨b, a, l2, l1, d2, d1, hs.symm⟩
      · simp at hij
    · rintro ⟨a, b, hi, hj, hda, hdb, hs⟩
      obtain ⟨c, k, a', hc, ha, rfl⟩ := hdec i hi
      obtain ⟨d, m, b', hd, hb, rfl⟩ := hdec j hj
      obtain ⟨-, -, d1⟩ := hcd (c, k) hc a' ha
      obtain ⟨-, -, d2⟩ := hcd (d, m) hd b' hb
      rw [d1] at hda; rw [d2] at hdb
      cases hda; cases hdb
      rcases hpairs' c a k d b m hc ha hd hb with h | h
      · exact ⟨_, ⟨_, h, rfl⟩, by simp [hs]⟩
      · exact ⟨_, ⟨_, h, rfl⟩, by simp [hs.symm]⟩
  refine ⟨_, hrows, ?_, hmem⟩
  intro i hi
  obtain ⟨a, b, hi', _, h1, h2, hs⟩ := (hmem i i).1 hi
  rw [h1] at h2; cases h2
  obtain ⟨c, k, a', hc, ha, rfl⟩ := hdec i hi'
  obtain ⟨-, -, d1⟩ := hcd (c, k) hc a' ha
  rw [d1] at h1; cases h1
  have hne' := hne c hc a (List.mem_of_getElem? ha)
  obtain ⟨y, hy⟩ := List.exists_mem_of_ne_nil _ hne'
  exact hs.1 y hy hy

/-- Densities `L^{g0}_{g1}`, `C^{g2}_{g3}`, `L^{g0 g2}_{g4 g5}`. -/
def exDensities : List Tensor :=
  let g (n : Nat) : Index := ⟨⟨.g, false⟩, n⟩
  [density .cumulant [g 0] [g 1], density .hole [g 2] [g 3], density .cumulant [g 0, g 2] [g 4, g 5]]

example : (∀ t ∈ exDensities, OfType .spinOrbital t) ∧ compatibleList exDensities = .ok [(0, 1), (1, 0)] := by
  constructor
  · simp [exDensities, OfType, density]
  · decide +kernel

example : let x : EleCon Tensor := ⟨[([0, 1], exDensities.take 1), ([1, 0], exDensities.drop 1)], [[1, 0], [0, 1]]⟩
    x.cats.Nodup ∧ (∀ c ∈ x.cats, ∀ t ∈ x.get c, OfType .spinOrbital t) ∧ (∀ c ∈ x.cats, ∀ t ∈ x.get c, t.upper.list ≠ []) ∧
      x.compatible = .ok [(0, 2), (2, 0)] := by
  refine ⟨by decide, ?_, ?_, by decide +kernel⟩ <;>
    simp [EleCon.get, dictGet, exDensities, OfType, density]

/-! ### C28 -/

/-- The sets the general search should produce: non-empty, pairwise compatible, with a number of contracted operators
inside the window. -/
def Admissible (P : BtParams) (available s : Finset Nat) : Prop :=
  s.Nonempty ∧ s ⊆ available ∧ (∀ i ∈ s, ∀ j ∈ s, i ≠ j → P.compat i j = true) ∧
    P.lo ≤ ((∑ i ∈ s, P.size i : Nat) : Int) ∧ ((∑ i ∈ s, P.size i : Nat) : Int) ≤ P.hi

/-- What a run yields from an intermediate state. -/
def BtYields (P : BtParams) (available chosen : Finset Nat) (n : Int) (s : Finset Nat) : Prop :=
  s.Nonempty ∧ ∃ X, X ⊆ available ∧ s = chosen ∪ X ∧ (∀ i ∈ X, ∀ j ∈ X, i ≠ j → P.compat i j = true) ∧
    P.lo ≤ n + ((∑ i ∈ X, P.size i : Nat) : Int) ∧ n + ((∑ i ∈ X, P.size i : Nat) : Int) ≤ P.hi

theorem btRun_spec (P : BtParams) (hsym : ∀ i j, P.compat i j = P.compat j i) {available chosen : Finset Nat} {n : Int}
    {out : List (Finset Nat)} {a' c' : Finset Nat} {d : Nat} (h : BtRun P available chosen n out a' c' d) :
    Disjoint available chosen → a' = available ∧ c' = chosen ∧ d = available.card + 1 ∧ out.Nodup ∧
      ∀ s, s ∈ out ↔ BtYields P available chosen n s := by
  induction h with
  | empty chosen n =>
    intro _
    refine ⟨rfl, rfl, by simp, by split <;> simp, ?_⟩
    intro s
    constructor
    · intro hs
      split at hs
      · rename_i hc
        simp at hs; subst hs
        refine ⟨Finset.card_ne_zero.1 hc.1, ∅, by simp, by simp, by simp, by simpa using hc.2.1, by simpa using hc.2.2⟩
      · simp at hs
    · rintro ⟨hne, X, hX, rfl, _, h1, h2⟩
      rw [Finset.subset_empty] at hX
      subst hX
      simp at h1 h2 hne
      have hc : chosen.card ≠ 0 ∧ P.lo ≤ n ∧ n ≤ P.hi := ⟨Finset.card_ne_zero.2 hne, h1, h2⟩
      rw [if_pos hc]; simp
  | step available chosen n temp out1 out2 a1 c1 a2 c2 d1 d2 hpop h1 h2 ih1 ih2 =>
    intro hdis
    have htc : temp ∉ chosen := fun h => (Finset.disjoint_left.1 hdis hpop) h
    obtain ⟨_, hc1, hd1, hn1, hs1⟩ := ih1 (by
      rw [Finset.disjoint_left]
      intro x hx hx'
      simp only [Finset.mem_filter, Finset.mem_erase] at hx
      rw [Finset.mem_insert] at hx'
      rcases hx' with hx' | hx'
      · exact hx.1.1 hx'
      · exact Finset.disjoint_left.1 hdis hx.1.2 hx')
    subst hc1
    rw [Finset.erase_insert htc] at h2 ih2
    obtain ⟨ha2, hc2, hd2, hn2, hs2⟩ := ih2 (by
      rw [Finset.disjoint_left]
      intro x hx hx'
      exact Finset.disjoint_left.1 hdis (Finset.mem_of_mem_erase hx) hx')
    subst ha2 hc2
    refine ⟨Finset.insert_erase hpop, rfl, ?_, ?_, ?_⟩
    · have : ((available.erase temp).filter fun j => P.compat temp j = true).card ≤ (available.erase temp).card :=
        Finset.card_filter_le _ _
      have h3 := Finset.card_erase_of_mem hpop
      have h4 := Finset.card_pos.2 ⟨temp, hpop⟩
      omega
    · rw [List.nodup_append']
      refine ⟨hn1, hn2, ?_⟩
      intro s hs hs'
      obtain ⟨_, X, _, rfl, _⟩ := (hs1 s).1 hs
      obtain ⟨_, Y, hY, hs'', _⟩ := (hs2 _).1 hs'
      have : temp ∈ c2 ∪ Y := by rw [← hs'']; simp
      rw [Finset.mem_union] at this
      rcases this with this | this
      · exact htc this
      · exact (Finset.mem_erase.1 (hY this)).1 rfl
    · intro s
      rw [List.mem_append, hs1, hs2]
      constructor
      · rintro (⟨hne, X, hX, rfl, hp, hw1, hw2⟩ | ⟨hne, X, hX, rfl, hp, hw1, hw2⟩)
        · have htX : temp ∉ X := fun h => by
            have := hX h
            simp at this
          refine ⟨hne, insert temp X, ?_, ?_, ?_, ?_, ?_⟩
          · intro x hx
            rw [Finset.mem_insert] at hx
            rcases hx with rfl | hx
            · exact hpop
            · have := hX hx
              simp only [Finset.mem_filter, Finset.mem_erase] at this
              exact this.1.2
          · ext y; simp
          · intro i hi j hj hij
            rw [Finset.mem_insert] at hi hj
            rcases hi with rfl | hi
            · rcases hj with rfl | hj
              · exact absurd rfl hij
              · exact (Finset.mem_filter.1 (hX hj)).2
            · rcases hj with rfl | hj
              · rw [hsym]; exact (Finset.mem_filter.1 (hX hi)).2
              · exact hp i hi j hj hij
          · rw [Finset.sum_insert htX]; push_cast; push_cast at hw1; omega
          · rw [Finset.sum_insert htX]; push_cast; push_cast at hw2; omega
        · refine ⟨hne, X, fun x hx => Finset.mem_of_mem_erase (hX hx), rfl, hp, by omega, by omega⟩
      · rintro ⟨hne, X, hX, rfl, hp, hw1, hw2⟩
        by_cases ht : temp ∈ X
        · left
          refine ⟨hne, X.erase temp, ?_, ?_, ?_, ?_, ?_⟩
          · intro x hx
            rw [Finset.mem_erase] at hx
            rw [Finset.mem_filter, Finset.mem_erase]
            exact ⟨⟨hx.1, hX hx.2⟩, hp temp ht x hx.2 hx.1.symm⟩
          · ext y
            by_cases hy : y = temp
            · subst hy; simp [ht]
            · simp [hy]
          · intro i hi j hj hij
            exact hp i (Finset.mem_of_mem_erase hi) j (Finset.mem_of_mem_erase hj) hij
          · have := Finset.add_sum_erase X P.size ht
            rw [← this] at hw1; push_cast at hw1 ⊢; omega
          · have := Finset.add_sum_erase X P.size ht
            rw [← this] at hw2; push_cast at hw2 ⊢; omega
        · right
          refine ⟨hne, X, ?_, rfl, hp, by omega, by omega⟩
          intro x hx
          rw [Finset.mem_erase]
          exact ⟨fun h => ht (h ▸ hx), hX hx⟩

/-- C28: whatever `set.pop()` returns, the general search yields exactly the admissible sets, each once, and leaves the
two sets as it found them. -/
theorem C28_general_backtrack (P : BtParams) (hsym : ∀ i j, P.compat i j = P.compat j i) (available : Finset Nat)
    (out : List (Finset Nat)) (a' c' : Finset Nat) (d : Nat) (h : BtRun P available ∅ 0 out a' c' d) :
    a' = available ∧ c' = ∅ ∧ out.Nodup ∧ ∀ s, s ∈ out ↔ Admissible P available s := by
  obtain ⟨h1, h2, _, h4, h5⟩ := btRun_spec P hsym h (by simp)
  refine ⟨h1, h2, h4, fun s => (h5 s).trans ?_⟩
  constructor
  · rintro ⟨hne, X, hX, rfl, hp, hw1, hw2⟩
    simp only [Finset.empty_union] at hne ⊢
    exact ⟨hne, hX, hp, by omega, by omega⟩
  · rintro ⟨hne, hX, hp, hw1, hw2⟩
    exact ⟨hne, s, hX, by simp, hp, by omega, by omega⟩

/-- C28: the search always terminates, whatever elements are popped: for any rule choosing the popped element there is a
run. -/
theorem C28_general_backtrack_terminates (P : BtParams) (pop : Finset Nat → Nat) (hpop : ∀ s : Finset Nat, s.Nonempty → pop s ∈ s)
    (available chosen : Finset Nat) (n : Int) : ∃ out a' c' d, BtRun P available chosen n out a' c' d := by
  have key : ∀ k, ∀ available chosen : Finset Nat, ∀ n : Int, available.card = k →
      ∃ out a' c' d, BtRun P available chosen n out a' c' d := by
    intro k
    induction k using Nat.strong_induction_on with
    | _ k ih =>
      intro available chosen n hk
      by_cases h : available = ∅
      · subst h; exact ⟨_, _, _, _, .empty chosen n⟩
      · have hne := Finset.nonempty_iff_ne_empty.2 h
        have hp := hpop available hne
        have hcard := Finset.card_erase_of_mem hp
        have hpos := Finset.card_pos.2 hne
        have hle : ((available.erase (pop available)).filter fun j => P.compat (pop available) j = true).card ≤
            (available.erase (pop available)).card := Finset.card_filter_le _ _
        obtain ⟨o1, a1, c1, d1, h1⟩ := ih _ (by omega)
          ((available.erase (pop available)).filter fun j => P.compat (pop available) j = true)
          (insert (pop available) chosen) (n + P.size (pop available)) rfl
        obtain ⟨o2, a2, c2, d2, h2⟩ := ih _ (by omega) (available.erase (pop available)) (c1.erase (pop available))
          (n + P.size (pop available) - P.size (pop available)) rfl
        exact ⟨_, _, _, _, .step available chosen n _ o1 o2 a1 c1 a2 c2 d1 d2 hp h1 h2⟩
  exact key _ _ _ _ rfl

/-- Three contractions, of which 0 and 1 are compatible, window 2 to 4. -/
def exBt : BtParams := ⟨fun i j => decide (i + j = 1), fun _ => 2, 2, 4⟩

example : ∃ out a' c' d, BtRun exBt {0, 1, 2} ∅ 0 out a' c' d ∧ out.Nodup ∧ {0, 1} ∈ out ∧ {0, 2} ∉ out := by
  obtain ⟨out, a', c', d, h⟩ := C28_general_backtrack_terminates exBt (fun s => if h : s.Nonempty then s.min' h else 0)
    (by intro s hs; simp only [hs, dif_pos]; exact Finset.min'_mem s hs) {0, 1, 2} ∅ 0
  have hs := C28_general_backtrack exBt (by intro i j; simp [exBt, add_comm]) _ _ _ _ _ h
  refine ⟨out, a', c', d, h, hs.2.2.1, ?_, ?_⟩
  · rw [hs.2.2.2]; refine ⟨by simp, by decide, by decide, by decide, by decide⟩
  · rw [hs.2.2.2]; rintro ⟨_, _, h3, _⟩; revert h3; decide

/-! ### C29 -/

/-- What a selection must satisfy, from an intermediate state. -/
def Selection (P : CatParams) (keys : Finset (List Nat)) (choices : Finset Nat) (target : List Nat → Int) (X : Finset Nat) :
    Prop :=
  X ⊆ choices ∧ (∀ i ∈ X, ∀ j ∈ X, i ≠ j → P.compat i j = true) ∧
    ∀ c ∈ keys, ((X.filter fun i => P.cat i = c).card : Int) = target c

theorem catRun_spec (P : CatParams) (keys : Finset (List Nat)) (hsym : ∀ i j, P.compat i j = P.compat j i)
    {choices : Finset Nat} {target : List Nat → Int} {chosen : List Nat} {out : List (List Nat)} {s' : Finset Nat}
    {t' : List Nat → Int} {c' : List Nat} (h : CatRun P keys choices target chosen out s' t' c') :
    (∀ i ∈ choices, P.cat i ∈ keys ∧ 1 ≤ target (P.cat i)) → (∀ c ∈ keys, 0 ≤ target c) → (∀ i ∈ choices, i ∉ chosen) →
    s' = choices ∧ t' = target ∧ c' = chosen ∧ (out.map List.toFinset).Nodup ∧
      (∀ l ∈ out, ∃ X : List Nat, l = chosen ++ X ∧ X.Nodup ∧ Selection P keys choices target X.toFinset) ∧
      (∀ X, Selection P keys choices target X → ∃ l : List Nat, chosen ++ l ∈ out ∧ l.Nodup ∧ l.toFinset = X) := by
  induction h with
  | stop choices target chosen h =>
    intro _ _ _
    refine ⟨rfl, rfl, rfl, by simp, by simp, ?_⟩
    rintro X ⟨hX, _, hcount⟩
    obtain ⟨c, hc, hlt⟩ := h
    have : (X.filter fun i => P.cat i = c).card ≤ (choices.filter fun i => P.cat i = c).card :=
      Finset.card_le_card (Finset.filter_subset_filter _ hX)
    have := hcount c hc
    omega
  | empty target chosen h =>
    intro _ hpos _
    refine ⟨rfl, rfl, rfl, by simp, ?_, ?_⟩
    · intro l hl
      simp at hl; subst hl
      refine ⟨[], by simp, by simp, by simp, by simp, ?_⟩
      intro c hc
      have := h c hc
      have := hpos c hc
      simp; omega
    · rintro X ⟨hX, _, _⟩
      rw [Finset.subset_empty] at hX
      subst hX
      exact ⟨[], by simp, by simp, by simp⟩
  | step choices target chosen con out1 out2 s1 s2 t1 t2 c1 c2 hcon h h1 h2 ih1 ih2 =>
    intro hkey hpos hdis
    have hconkey := hkey con hcon
    have hconch := hdis con hcon
    obtain ⟨_, ht1, hc1, hn1, ha1, hb1⟩ := ih1 (by
      intro i hi
      simp only [Finset.mem_filter, Finset.mem_erase] at hi
      have := hkey i hi.1.1.2
      refine ⟨this.1, ?_⟩
      by_cases hc : P.cat i = P.cat con
      · rw [hc, Function.update_self]
        have : target (P.cat con) - 1 ≠ 0 := fun h => hi.2 ⟨h, hc⟩
        omega
      · rw [Function.update_of_ne hc]; exact this.2) (by
      intro c hc
      by_cases hc' : c = P.cat con
      · rw [hc', Function.update_self]; omega
      · rw [Function.update_of_ne hc']; exact hpos c hc) (by
      intro i hi
      simp only [Finset.mem_filter, Finset.mem_erase] at hi
      simp only [List.mem_append, List.mem_singleton, not_or]
      exact ⟨hdis i hi.1.1.2, hi.1.1.1⟩)
    subst ht1 hc1
    have hupd : Function.update (Function.update target (P.cat con) (target (P.cat con) - 1)) (P.cat con)
        (Function.update target (P.cat con) (target (P.cat con) - 1) (P.cat con) + 1) = target := by
      rw [Function.update_self, Function.update_idem]
      simp
    rw [hupd, List.dropLast_concat] at ih2 h2
    obtain ⟨hs2, ht2, hc2, hn2, ha2, hb2⟩ := ih2 (fun i hi => hkey i (Finset.mem_of_mem_erase hi)) hpos
      (fun i hi => hdis i (Finset.mem_of_mem_erase hi))
    subst hs2 ht2 hc2
    refine ⟨Finset.insert_erase hcon, rfl, rfl, ?_, ?_, ?_⟩
    · rw [List.map_append, List.nodup_append']
      refine ⟨hn1, hn2, ?_⟩
      intro s hs hs'
      simp only [List.mem_map] at hs hs'
      obtain ⟨l, hl, rfl⟩ := hs
      obtain ⟨l', hl', he⟩ := hs'
      obtain ⟨X, rfl, _⟩ := ha1 l hl
      obtain ⟨Y, rfl, _, hY, _⟩ := ha2 l' hl'
      have : con ∈ (c2 ++ Y).toFinset := by rw [he]; simp
      simp only [List.mem_toFinset, List.mem_append] at this
      rcases this with this | this
      · exact hconch this
      · have := hY (List.mem_toFinset.2 this)
        exact (Finset.mem_erase.1 this).1 rfl
    · intro l hl
      rw [List.mem_append] at hl
      rcases hl with hl | hl
      · obtain ⟨X, rfl, hXn, hX, hXp, hXc⟩ := ha1 l hl
        have hconX : con ∉ X := fun hx => by
          have := hX (List.mem_toFinset.2 hx)
          simp at this
        refine ⟨con :: X, by simp, List.nodup_cons.2 ⟨hconX, hXn⟩, ?_, ?_, ?_⟩
        · intro i hi
          simp only [List.toFinset_cons, Finset.mem_insert, List.mem_toFinset] at hi
          rcases hi with rfl | hi
          · exact hcon
          · have := hX (List.mem_toFinset.2 hi)
            simp only [Finset.mem_filter, Finset.mem_erase] at this
            exact this.1.1.2
        · intro i hi j hj hij
          simp only [List.toFinset_cons, Finset.mem_insert, List.mem_toFinset] at hi hj
          have hcomp : ∀ k, k ∈ X → P.compat con k = true := by
            intro k hk
            have := hX (List.mem_toFinset.2 hk)
            simp only [Finset.mem_filter] at this
            exact this.1.2
          rcases hi with rfl | hi
          · rcases hj with rfl | hj
            · exact absurd rfl hij
            · exact hcomp j hj
          · rcases hj with rfl | hj
            · rw [hsym]; exact hcomp i hi
            · exact hXp i (List.mem_toFinset.2 hi) j (List.mem_toFinset.2 hj) hij
        · intro c hc
          have := hXc c hc
          rw [List.toFinset_cons, Finset.filter_insert]
          by_cases hcc : P.cat con = c
          · rw [if_pos hcc, Finset.card_insert_of_notMem (by simp [hconX])]
            rw [← hcc, Function.update_self] at this
            push_cast
            rw [← hcc]; omega
          · rw [if_neg hcc]
            rw [Function.update_of_ne (fun h => hcc h.symm)] at this
            exact this
      · obtain ⟨X, rfl, hXn, hX, hXp, hXc⟩ := ha2 l hl
        exact ⟨X, rfl, hXn, fun i hi => Finset.mem_of_mem_erase (hX hi), hXp, hXc⟩
    · rintro X ⟨hX, hXp, hXc⟩
      by_cases hx : con ∈ X
      · have hsel : Selection P keys (((choices.erase con).filter fun j => P.compat con j = true).filter fun j =>
            ¬ (t2 (P.cat con) - 1 = 0 ∧ P.cat j = P.cat con))
            (Function.update t2 (P.cat con) (t2 (P.cat con) - 1)) (X.erase con) := by
          have hcount : ∀ c ∈ keys, (((X.erase con).filter fun i => P.cat i = c).card : Int) =
              Function.update t2 (P.cat con) (t2 (P.cat con) - 1) c := by
            intro c hc
            have := hXc c hc
            rw [Finset.filter_erase]
            by_cases hcc : P.cat con = c
            · have hm : con ∈ X.filter fun i => P.cat i = c := by simp [hx, hcc]
              rw [Finset.card_erase_of_mem hm, ← hcc, Function.update_self, ← hXc _ hconkey.1]
              have := Finset.card_pos.2 ⟨con, hm⟩
              rw [← hcc] at this; omega
            · rw [Finset.erase_eq_of_notMem (by simp [hcc]), Function.update_of_ne (fun h => hcc h.symm)]
              exact this
          refine ⟨?_, fun i hi j hj => hXp i (Finset.mem_of_mem_erase hi) j (Finset.mem_of_mem_erase hj), hcount⟩
          intro i hi
          have hi' := Finset.mem_erase.1 hi
          rw [Finset.mem_filter, Finset.mem_filter, Finset.mem_erase]
          refine ⟨⟨⟨hi'.1, hX hi'.2⟩, hXp con hx i hi'.2 hi'.1.symm⟩, ?_⟩
          rintro ⟨hz, hic⟩
          have := hcount (P.cat con) hconkey.1
          rw [Function.update_self, hz] at this
          have hm : i ∈ (X.erase con).filter fun j => P.cat j = P.cat con := by
            rw [Finset.mem_filter]; exact ⟨hi, hic⟩
          have := Finset.card_pos.2 ⟨i, hm⟩
          omega
        obtain ⟨l, hl, hln, hlX⟩ := hb1 _ hsel
        refine ⟨con :: l, by rw [List.mem_append]; left; simpa using hl, ?_, ?_⟩
        · rw [List.nodup_cons]
          refine ⟨fun hc => ?_, hln⟩
          have : con ∈ l.toFinset := List.mem_toFinset.2 hc
          rw [hlX] at this; simp at this
        · rw [List.toFinset_cons, hlX, Finset.insert_erase hx]
      · obtain ⟨l, hl, hln, hlX⟩ := hb2 X ⟨fun i hi => by
          rw [Finset.mem_erase]; exact ⟨fun h => hx (h ▸ hi), hX hi⟩, hXp, hXc⟩
        exact ⟨l, by rw [List.mem_append]; exact Or.inr hl, hln, hlX⟩

theorem catRun_exists (P : CatParams) (keys : Finset (List Nat)) (pop : Finset Nat → Nat)
    (hpop : ∀ s : Finset Nat, s.Nonempty → pop s ∈ s) (choices : Finset Nat) (target : List Nat → Int) (chosen : List Nat) :
    ∃ out s' t' c', CatRun P keys choices target chosen out s' t' c' := by
  have key : ∀ k, ∀ (choices : Finset Nat) (target : List Nat → Int) (chosen : List Nat), choices.card = k →
      ∃ out s' t' c', CatRun P keys choices target chosen out s' t' c' := by
    intro k
    induction k using Nat.strong_induction_on with
    | _ k ih =>
      intro choices target chosen hk
      by_cases hstop : ∃ c ∈ keys, target c > ((choices.filter fun i => P.cat i = c).card : Int)
      · exact ⟨_, _, _, _, .stop choices target chosen hstop⟩
      · have hgo : ∀ c ∈ keys, target c ≤ ((choices.filter fun i => P.cat i = c).card : Int) := by
          intro c hc
          by_contra hcon
          exact hstop ⟨c, hc, by omega⟩
        by_cases h : choices = ∅
        · subst h
          exact ⟨_, _, _, _, .empty target chosen (by simpa using hgo)⟩
        · have hp := hpop choices (Finset.nonempty_iff_ne_empty.2 h)
          have hcard := Finset.card_erase_of_mem hp
          have hpos := Finset.card_pos.2 ⟨_, hp⟩
          have hle : (((choices.erase (pop choices)).filter fun j => P.compat (pop choices) j = true).filter fun j =>
              ¬ (target (P.cat (pop choices)) - 1 = 0 ∧ P.cat j = P.cat (pop choices))).card ≤
              (choices.erase (pop choices)).card :=
            (Finset.card_filter_le _ _).trans (Finset.card_filter_le _ _)
          obtain ⟨o1, s1, t1, c1, h1⟩ := ih _ (by omega) (((choices.erase (pop choices)).filter fun j =>
            P.compat (pop choices) j = true).filter fun j =>
              ¬ (target (P.cat (pop choices)) - 1 = 0 ∧ P.cat j = P.cat (pop choices)))
            (Function.update target (P.cat (pop choices)) (target (P.cat (pop choices)) - 1)) (chosen ++ [pop choices]) rfl
          obtain ⟨o2, s2, t2, c2, h2⟩ := ih _ (by omega) (choices.erase (pop choices))
            (Function.update t1 (P.cat (pop choices)) (t1 (P.cat (pop choices)) + 1)) c1.dropLast rfl
          exact ⟨_, _, _, _, .step choices target chosen _ o1 o2 s1 s2 t1 t2 c1 c2 hp hgo h1 h2⟩
  exact key _ _ _ _ rfl

theorem mapM_categoryRange {α : Type} (x : EleCon α) (hn : x.cats.Nodup) (keys : List (List Nat)) (hk : ∀ c ∈ keys, c ∈ x.cats) :
    ∃ ranges, keys.mapM x.categoryRange = .ok ranges ∧
      ∀ code, code ∈ ranges.flatten ↔ code < x.size ∧ x.catOf code ∈ keys := by
  obtain ⟨_, _, huniq, hrange, _⟩ := C26_codes x hn
  refine ⟨keys.map fun c => match x.categoryRange c with | .ok r => r | .error _ => [], ?_, ?_⟩
  · apply mapM_except_ok
    intro c hc
    obtain ⟨r, hr, _⟩ := hrange c (hk c hc)
    rw [hr]
  · intro code
    simp only [List.mem_flatten, List.mem_map]
    constructor
    · rintro ⟨l, ⟨c, hc, rfl⟩, hl⟩
      obtain ⟨r, hr, _, hm⟩ := hrange c (hk c hc)
      rw [hr] at hl
      obtain ⟨h1, h2⟩ := (hm code).2.1 hl
      unfold EleCon.catOf
      rw [h2]; exact ⟨h1, hc⟩
    · rintro ⟨h1, h2⟩
      refine ⟨_, ⟨_, h2, rfl⟩, ?_⟩
      obtain ⟨r, hr, _, hm⟩ := hrange _ (hk _ h2)
      rw [hr]
      refine (hm code).2.2 ⟨h1, ?_⟩
      obtain ⟨⟨c, j⟩, ⟨hc, hj, he⟩, _⟩ := huniq code h1
      obtain ⟨r', _, _, hm'⟩ := hrange c hc
      have := ((hm' code).2.1 ((hm' code).1.2 ⟨j, hj, he⟩)).2
      unfold EleCon.catOf
      rw [this]

/-- The selections `composite_contractions(target, compatible)` should produce: valid codes, only from requested
categories, the requested number from each, pairwise compatible. -/
def GoodSelection {α : Type} (x : EleCon α) (compat : Nat → Nat → Bool) (keys : List (List Nat)) (target : List Nat → Int)
    (X : Finset Nat) : Prop :=
  (∀ i ∈ X, i < x.size ∧ ∃ c ∈ keys, x.findCategory i = .ok c) ∧ (∀ i ∈ X, ∀ j ∈ X, i ≠ j → compat i j = true) ∧
    ∀ c ∈ keys, ((X.filter fun i => x.findCategory i = .ok c).card : Int) = target c

/-- C29: whatever `set.pop()` returns, the category-wise search (called with `compatible`, as the package does) yields
exactly the selections with the requested numbers, each once, and leaves the counter unchanged. -/
theorem C29_category_backtrack {α : Type} (x : EleCon α) (hn : x.cats.Nodup) (compat : Nat → Nat → Bool)
    (hsym : ∀ i j, compat i j = compat j i) (keys : List (List Nat)) (hk : ∀ c ∈ keys, c ∈ x.cats)
    (target : List Nat → Int) (ht : ∀ c ∈ keys, 1 ≤ target c) (out : List (List Nat)) (target' : List Nat → Int)
    (h : x.CompositeRun compat keys target out target') :
    target' = target ∧ (∀ l ∈ out, l.Nodup) ∧ (out.map List.toFinset).Nodup ∧
      ∀ X, X ∈ out.map List.toFinset ↔ GoodSelection x compat keys target X := by
  obtain ⟨ranges, hr, s', c', hrun⟩ := h
  obtain ⟨ranges', hr', hmem⟩ := mapM_categoryRange x hn keys hk
  rw [hr] at hr'; cases hr'
  obtain ⟨_, h2, _, h4, h5, h6⟩ := catRun_spec _ _ hsym hrun (by
    intro i hi
    rw [List.mem_toFinset, hmem] at hi
    exact ⟨List.mem_toFinset.2 hi.2, ht _ hi.2⟩) (by
    intro c hc
    have := ht c (List.mem_toFinset.1 hc)
    omega) (by simp)
  obtain ⟨_, _, huniq, hrange, _⟩ := C26_codes x hn
  have hfind : ∀ i, i < x.size → x.findCategory i = .ok (x.catOf i) := by
    intro i hi
    obtain ⟨⟨c, j⟩, ⟨hc, hj, he⟩, _⟩ := huniq i hi
    obtain ⟨r', _, _, hm'⟩ := hrange c hc
    have := ((hm' i).2.1 ((hm' i).1.2 ⟨j, hj, he⟩)).2
    unfold EleCon.catOf
    rw [this]
  have hiff : ∀ X : Finset Nat, Selection ⟨compat, x.catOf⟩ keys.toFinset ranges.flatten.toFinset target X ↔
      GoodSelection x compat keys target X := by
    intro X
    have hfilter : (∀ i ∈ X, i < x.size) → ∀ c, (X.filter fun i => x.catOf i = c) = X.filter fun i => x.findCategory i = .ok c := by
      intro hX c
      apply Finset.filter_congr
      intro i hi
      rw [hfind i (hX i hi)]
      constructor
      · intro h; rw [h]
      · intro h; injection h
    constructor
    · rintro ⟨g1, g2, g3⟩
      have hX : ∀ i ∈ X, i < x.size := fun i hi => ((hmem i).1 (List.mem_toFinset.1 (g1 hi))).1
      refine ⟨fun i hi => ?_, g2, fun c hc => ?_⟩
      · have := (hmem i).1 (List.mem_toFinset.1 (g1 hi))
        exact ⟨this.1, _, this.2, hfind i this.1⟩
      · rw [← hfilter hX]; exact g3 c (List.mem_toFinset.2 hc)
    · rintro ⟨g1, g2, g3⟩
      have hX : ∀ i ∈ X, i < x.size := fun i hi => (g1 i hi).1
      refine ⟨fun i hi => ?_, g2, fun c hc => ?_⟩
      · rw [List.mem_toFinset, hmem]
        obtain ⟨hi1, c, hc, hi2⟩ := g1 i hi
        rw [hfind i hi1] at hi2
        injection hi2 with hi2
        exact ⟨hi1, hi2 ▸ hc⟩
      · have := g3 c (List.mem_toFinset.1 hc)
        rw [← hfilter hX] at this; exact this
  refine ⟨h2, ?_, h4, ?_⟩
  · intro l hl
    obtain ⟨X, rfl, hX, _⟩ := h5 l hl
    simpa using hX
  · intro X
    rw [← hiff, List.mem_map]
    constructor
    · rintro ⟨l, hl, rfl⟩
      obtain ⟨X, rfl, _, hX⟩ := h5 l hl
      simpa using hX
    · intro hX
      obtain ⟨l, hl, _, hlX⟩ := h6 X hX
      exact ⟨l, by simpa using hl, hlX⟩

/-- C29: the search always terminates. -/
theorem C29_terminates {α : Type} (x : EleCon α) (hn : x.cats.Nodup) (compat : Nat → Nat → Bool) (keys : List (List Nat))
    (hk : ∀ c ∈ keys, c ∈ x.cats) (target : List Nat → Int) (pop : Finset Nat → Nat)
    (hpop : ∀ s : Finset Nat, s.Nonempty → pop s ∈ s) : ∃ out target', x.CompositeRun compat keys target out target' := by
  obtain ⟨ranges, hr, _⟩ := mapM_categoryRange x hn keys hk
  obtain ⟨out, s', t', c', h⟩ := catRun_exists ⟨compat, x.catOf⟩ keys.toFinset pop hpop ranges.flatten.toFinset target []
  exact ⟨out, t', ranges, hr, s', c', h⟩

/-- C29 is violated for the call `composite_contractions(target)` that leaves out `compatible`: it raises `TypeError`
whenever a requested category has a contraction. -/
theorem C29_violation_default_compatible {α : Type} (x : EleCon α) (keys : List (List Nat)) (c : List Nat) (hc : c ∈ keys)
    (hne : x.get c ≠ []) : x.compatibleOfKeys keys = .error .typeError := by
  unfold EleCon.compatibleOfKeys
  rw [if_pos]
  rw [List.any_eq_true]
  exact ⟨c, hc, by simpa using hne⟩

/-- Two contractions of category `[0, 1]` and two of `[1, 0]`; one of each is requested. -/
example : let x : EleCon Char := ⟨[([0, 1], ['a', 'b']), ([1, 0], ['c', 'd'])], [[1, 0], [0, 1]]⟩
    ∃ out target', x.CompositeRun (fun i j => decide (i + j = 3)) [[0, 1], [1, 0]] (fun _ => 1) out target' ∧
      {0, 3} ∈ out.map List.toFinset ∧ {0, 2} ∉ out.map List.toFinset := by
  intro x
  have hn : x.cats.Nodup := by decide
  have hk : ∀ c ∈ [[0, 1], [1, 0]], c ∈ x.cats := by decide
  obtain ⟨out, target', h⟩ := C29_terminates x hn (fun i j => decide (i + j = 3)) [[0, 1], [1, 0]] hk (fun _ => 1)
    (fun s => if h : s.Nonempty then s.min' h else 0) (by intro s hs; simp only [hs, dif_pos]; exact Finset.min'_mem s hs)
  have hs := C29_category_backtrack x hn _ (by intro i j; simp [add_comm]) _ hk _ (by simp) out target' h
  refine ⟨out, target', h, ?_, ?_⟩
  · rw [hs.2.2.2]; refine ⟨by decide +kernel, by decide, by decide +kernel⟩
  · rw [hs.2.2.2]; rintro ⟨_, h2, _⟩; revert h2; decide

/-! ### C36 -/

/-- The recursion limit in force during the search over `n` elementary contractions, sqop_contraction.py:715-717
(CPython's default limit is 1000). -/
def recursionLimit (n : Nat) : Nat := if n > 1000 then n else 1000

/-- C36: the search over `n` elementary contractions needs exactly `n + 1` nested calls. -/
theorem C36_depth (P : BtParams) (hsym : ∀ i j, P.compat i j = P.compat j i) (n : Nat) (out : List (Finset Nat))
    (a' c' : Finset Nat) (d : Nat) (h : BtRun P (Finset.range n) ∅ 0 out a' c' d) : d = n + 1 := by
  have := (btRun_spec P hsym h (by simp)).2.2.1
  simpa using this

/-- C36 (part): with fewer than `1000 - outer` elementary contractions the search stays within the limit, where `outer` is
the number of frames of the caller.  Missing: larger numbers, for which the claim is false (next theorem). -/
theorem C36_small_partial (P : BtParams) (hsym : ∀ i j, P.compat i j = P.compat j i) (n outer : Nat)
    (hn : n + outer < 1000) (out : List (Finset Nat)) (a' c' : Finset Nat) (d : Nat)
    (h : BtRun P (Finset.range n) ∅ 0 out a' c' d) : outer + d ≤ recursionLimit n := by
  have hd := C36_depth P hsym n out a' c' d h
  have hl : 1000 ≤ recursionLimit n := by unfold recursionLimit; split <;> omega
  omega

/-- C36 is violated: from 1000 elementary contractions on, every run needs more nested calls than the limit allows. -/
theorem C36_violation (P : BtParams) (hsym : ∀ i j, P.compat i j = P.compat j i) (n : Nat) (hn : 1000 ≤ n)
    (out : List (Finset Nat)) (a' c' : Finset Nat) (d : Nat) (h : BtRun P (Finset.range n) ∅ 0 out a' c' d) :
    recursionLimit n < d := by
  have hd := C36_depth P hsym n out a' c' d h
  have hl : recursionLimit n ≤ n := by unfold recursionLimit; split <;> omega
  omega

end Dsrg
