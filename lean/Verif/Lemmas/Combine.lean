import Verif.Lemmas.Hash
import Verif.Lemmas.Dict
import Verif.Lemmas.Order
import Verif.Spec.TermList
import Verif.Spec.TermValue
import Mathlib.Data.List.Sort
import Mathlib.Algebra.BigOperators.Group.List.Basic

/-!
Combining terms.
-/

namespace Dsrg

/-! ### The order of terms -/

theorem TotLt.list {α : Type} [DecidableEq α] {lt le : α → α → Bool} (h : TotLt lt le) : TotLt (pyListLt lt) (pyListLe le) where
  irrefl x := by
    induction x with
    | nil => rfl
    | cons a x ih => simp [pyListLt, ih]
  trans x := by
    induction x with
    | nil =>
      intro y z h1 h2
      cases y with
      | nil => simp [pyListLt] at h1
      | cons b y => cases z with
        | nil => simp [pyListLt] at h2
        | cons c z => rfl
    | cons a x ih =>
      intro y z h1 h2
      cases y with
      | nil => simp [pyListLt] at h1
      | cons b y =>
        cases z with
        | nil => simp [pyListLt] at h2
        | cons c z =>
          simp only [pyListLt] at h1 h2 ⊢
          by_cases hab : a = b
          · rw [if_pos hab] at h1
            by_cases hbc : b = c
            · rw [if_pos hbc] at h2
              rw [if_pos (hab.trans hbc)]
              exact ih _ _ h1 h2
            · rw [if_neg hbc] at h2
              rw [hab, if_neg hbc]; exact h2
          · rw [if_neg hab] at h1
            by_cases hbc : b = c
            · rw [← hbc, if_neg hab]; exact h1
            · rw [if_neg hbc] at h2
              have h3 := h.trans _ _ _ h1 h2
              by_cases hac : a = c
              · rw [hac, h.irrefl] at h3; exact absurd h3 (by decide)
              · rw [if_neg hac]; exact h3
  tri x := by
    induction x with
    | nil =>
      intro y
      cases y with
      | nil => exact Or.inr (Or.inl rfl)
      | cons b y => exact Or.inl rfl
    | cons a x ih =>
      intro y
      cases y with
      | nil => exact Or.inr (Or.inr rfl)
      | cons b y =>
        simp only [pyListLt]
        by_cases hab : a = b
        · subst hab
          simp only [if_true]
          rcases ih y with h1 | h1 | h1
          · exact Or.inl h1
          · exact Or.inr (Or.inl (by rw [h1]))
          · exact Or.inr (Or.inr h1)
        · rw [if_neg hab, if_neg (Ne.symm hab)]
          rcases h.tri a b with h1 | h1 | h1
          · exact Or.inl h1
          · exact absurd h1 hab
          · exact Or.inr (Or.inr h1)
  le_eq x := by
    induction x with
    | nil => intro y; cases y <;> rfl
    | cons a x ih =>
      intro y
      cases y with
      | nil => rfl
      | cons b y =>
        simp only [pyListLt, pyListLe]
        by_cases hab : a = b
        · subst hab; simp only [if_true]; exact ih y
        · rw [if_neg hab, if_neg (Ne.symm hab)]; exact h.le_eq a b

/-- The order of tensors on keys. -/
abbrev tensorKeyLt := lexCmp (fun a b : Int => decide (a < b)) (lexCmp strLt (lexCmp (fun a b : Nat => decide (a < b))
      (lexCmp (lexCmp (fun a b : Nat => decide (a < b)) (pyListLt Index.pyLt))
      (lexCmp (fun a b : Nat => decide (a < b)) (pyListLt Index.pyLt)))))
/-- The weak order of tensors on keys. -/
abbrev tensorKeyLe := lexCmp (fun a b : Int => decide (a ≤ b)) (lexCmp strLe (lexCmp (fun a b : Nat => decide (a ≤ b))
      (lexCmp (lexCmp (fun a b : Nat => decide (a ≤ b)) (pyListLe Index.pyLe))
      (lexCmp (fun a b : Nat => decide (a ≤ b)) (pyListLe Index.pyLe)))))

theorem tensorsEq_eq : ∀ x y : List Tensor, tensorsEq x y = decide (x.map Tensor.cmpKey = y.map Tensor.cmpKey)
  | [], [] => by simp [tensorsEq]
  | [], _ :: _ => by simp [tensorsEq]
  | _ :: _, [] => by simp [tensorsEq]
  | a :: x, b :: y => by
    rw [tensorsEq, Tensor.eqCore_eq, tensorsEq_eq x y]
    by_cases h : a.cmpKey = b.cmpKey <;> simp [h]

theorem tensorsLt_eq : ∀ x y : List Tensor, tensorsLt x y = pyListLt tensorKeyLt (x.map Tensor.cmpKey) (y.map Tensor.cmpKey)
  | [], [] => rfl
  | [], _ :: _ => rfl
  | _ :: _, [] => rfl
  | a :: x, b :: y => by
    simp only [tensorsLt, List.map_cons, pyListLt, Tensor.eqCore_eq, tensorsLt_eq x y, Tensor.ltCore_eq, decide_eq_true_eq]

theorem tensorsLe_eq : ∀ x y : List Tensor, tensorsLe x y = pyListLe tensorKeyLe (x.map Tensor.cmpKey) (y.map Tensor.cmpKey)
  | [], [] => rfl
  | [], _ :: _ => rfl
  | _ :: _, [] => rfl
  | a :: x, b :: y => by
    simp only [tensorsLe, List.map_cons, pyListLe, Tensor.eqCore_eq, tensorsLe_eq x y, Tensor.leCore_eq, decide_eq_true_eq]

/-- Sorting key of a term. -/
def Term.cmpKey (t : Term) := (t.sqOp.cmpKey, t.tensors.length, t.tensors.map Tensor.cmpKey, |t.coeff|, t.coeff)

/-- The order of terms on keys. -/
abbrev termKeyLt := lexCmp (lexCmp (lexCmp (fun a b : Nat => decide (a < b)) (pyListLt Index.pyLt))
      (lexCmp (fun a b : Nat => decide (a < b)) (pyListLt Index.pyLt)))
      (lexCmp (fun a b : Nat => decide (a < b)) (lexCmp (pyListLt tensorKeyLt) (lexCmp (fun a b : ℚ => decide (a < b)) (fun a b : ℚ => decide (a < b)))))
/-- The weak order of terms on keys. -/
abbrev termKeyLe := lexCmp (lexCmp (lexCmp (fun a b : Nat => decide (a ≤ b)) (pyListLe Index.pyLe))
      (lexCmp (fun a b : Nat => decide (a ≤ b)) (pyListLe Index.pyLe)))
      (lexCmp (fun a b : Nat => decide (a ≤ b)) (lexCmp (pyListLe tensorKeyLe) (lexCmp (fun a b : ℚ => decide (a ≤ b)) (fun a b : ℚ => decide (a ≤ b)))))

theorem term_totLt : TotLt termKeyLt termKeyLe :=
  pair_totLt.lex ((totLt_linear (α := Nat)).lex (tensor_totLt.list.lex ((totLt_linear (α := ℚ)).lex (totLt_linear (α := ℚ)))))

theorem Term.ltCore_eq (x y : Term) : x.ltCore y = termKeyLt x.cmpKey y.cmpKey := by
  unfold Term.ltCore termKeyLt Term.cmpKey
  simp only [lexCmp, IndicesPair.eqCore_eq, IndicesPair.ltCore_eq, tensorsEq_eq, tensorsLt_eq, decide_eq_true_eq]

theorem Term.leCore_eq (x y : Term) : x.leCore y = termKeyLe x.cmpKey y.cmpKey := by
  unfold Term.leCore termKeyLe Term.cmpKey
  simp only [lexCmp, IndicesPair.eqCore_eq, IndicesPair.leCore_eq, tensorsEq_eq, tensorsLe_eq, decide_eq_true_eq]

theorem Term.cmpKey_eq_iff (x y : Term) : x.cmpKey = y.cmpKey ↔ x.sqOp.cmpKey = y.sqOp.cmpKey ∧
    x.tensors.map Tensor.cmpKey = y.tensors.map Tensor.cmpKey ∧ x.coeff = y.coeff := by
  simp only [Term.cmpKey, Prod.mk.injEq]
  constructor
  · rintro ⟨a, -, b, -, c⟩; exact ⟨a, b, c⟩
  · rintro ⟨a, b, c⟩
    refine ⟨a, ?_, b, by rw [c], c⟩
    simpa using congrArg List.length b

/-- Terms sorted with `<`. -/
def sortedTerms (terms : List Term) : List Term := terms.insertionSort fun x y => (!(y.ltCore x)) = true

theorem sortedTerms_perm (terms : List Term) : (sortedTerms terms).Perm terms := List.perm_insertionSort _ _

theorem term_notLt_trans {x y z : Term} (h1 : y.ltCore x = false) (h2 : z.ltCore y = false) : z.ltCore x = false := by
  rw [Term.ltCore_eq] at *
  rw [Bool.eq_false_iff]
  intro h
  rcases term_totLt.tri y.cmpKey z.cmpKey with h' | h' | h'
  · rw [term_totLt.trans _ _ _ h' h] at h1; exact absurd h1 (by decide)
  · rw [h', h] at h1; exact absurd h1 (by decide)
  · rw [h'] at h2; exact absurd h2 (by decide)

theorem term_notLt_total (x y : Term) : y.ltCore x = false ∨ x.ltCore y = false := by
  rw [Term.ltCore_eq, Term.ltCore_eq]
  by_contra h
  rw [not_or, Bool.not_eq_false, Bool.not_eq_false] at h
  have := term_totLt.trans _ _ _ h.1 h.2
  rw [term_totLt.irrefl] at this
  exact absurd this (by decide)

theorem sortedTerms_sorted (terms : List Term) : (sortedTerms terms).Pairwise fun x y => y.ltCore x = false := by
  have : (sortedTerms terms).Pairwise fun x y => (!(y.ltCore x)) = true := by
    have : Std.Total (fun x y : Term => (!(y.ltCore x)) = true) := ⟨fun x y => by simpa using term_notLt_total x y⟩
    have : IsTrans Term (fun x y : Term => (!(y.ltCore x)) = true) :=
      ⟨fun x y z h1 h2 => by simp only [Bool.not_eq_true'] at *; exact term_notLt_trans h1 h2⟩
    exact List.pairwise_insertionSort _ _
  exact this.imp (by simp)

/-! ### Regular lists -/

theorem eq_of_map_shown : ∀ {ts ts' : List Tensor}, (∀ x ∈ ts, ∀ y ∈ ts', x.shown = y.shown → x = y) →
    ts.map Tensor.shown = ts'.map Tensor.shown → ts = ts'
  | [], [], _, _ => rfl
  | [], _ :: _, _, h => by simp at h
  | _ :: _, [], _, h => by simp at h
  | x :: ts, y :: ts', h1, h => by
    simp only [List.map_cons, List.cons.injEq] at h
    rw [h1 x (by simp) y (by simp) h.1, eq_of_map_shown (fun a ha b hb => h1 a (by simp [ha]) b (by simp [hb])) h.2]

theorem Indices.ext' {x y : Indices} (h1 : x.ty = y.ty) (h2 : x.list = y.list) : x = y := by
  cases x; cases y; simp_all

theorem IndicesPair.ext' {x y : IndicesPair} (h1 : x.upper = y.upper) (h2 : x.lower = y.lower) : x = y := by
  cases x; cases y; simp_all

theorem Regular.same_iff {ty : IType} {terms : List Term} (h : Regular ty terms) {t t' : Term} (ht : t ∈ terms) (ht' : t' ∈ terms) :
    t.hashTerm = t'.hashTerm ↔ t.Same t' := by
  constructor
  · intro e
    obtain ⟨h1, h2, h3⟩ := Term.hashTerm_cancel (h.name t ht) (h.name t' ht') e
    refine ⟨eq_of_map_shown ?_ h1, ?_⟩
    · intro x hx y hy hxy
      simp only [Tensor.shown, Prod.mk.injEq] at hxy
      obtain ⟨k1, k2⟩ := h.kind t ht x hx t' ht' y hy hxy.1
      obtain ⟨a1, a2⟩ := h.tensor t ht x hx
      obtain ⟨b1, b2⟩ := h.tensor t' ht' y hy
      have e1 : x.upper = y.upper := Indices.ext' (a1.trans b1.symm) hxy.2.1
      have e2 : x.lower = y.lower := Indices.ext' (a2.trans b2.symm) hxy.2.2
      obtain ⟨c, n, p, ⟨u, l⟩⟩ := x
      obtain ⟨c', n', p', ⟨u', l'⟩⟩ := y
      simp only [Tensor.upper, Tensor.lower] at *
      rw [k1, k2, hxy.1, e1, e2]
    · obtain ⟨a1, a2⟩ := h.op t ht
      obtain ⟨b1, b2⟩ := h.op t' ht'
      exact IndicesPair.ext' (Indices.ext' (a1.trans b1.symm) h2) (Indices.ext' (a2.trans b2.symm) h3)
  · rintro ⟨h1, h2⟩
    unfold Term.hashTerm
    rw [h1, h2]

/-! ### The dictionary of last terms -/

theorem dictSet_keys {κ ν : Type} [DecidableEq κ] (d : Dict κ ν) (k : κ) (v : ν) :
    (dictSet d k v).map Prod.fst = if k ∈ d.map Prod.fst then d.map Prod.fst else d.map Prod.fst ++ [k] := by
  induction d with
  | nil => simp [dictSet]
  | cons e d ih =>
    obtain ⟨k', v'⟩ := e
    by_cases h : k' = k
    · simp [dictSet, h]
    · have h' : ¬ k = k' := fun h'' => h h''.symm
      simp only [dictSet, if_neg h, List.map_cons, ih, List.mem_cons, h', false_or]
      split <;> simp

theorem mem_dictSet {κ ν : Type} [DecidableEq κ] {d : Dict κ ν} {k : κ} {v : ν} {e : κ × ν} (h : e ∈ dictSet d k v) :
    e = (k, v) ∨ e ∈ d := by
  induction d with
  | nil => simp [dictSet] at h; exact Or.inl h
  | cons x d ih =>
    obtain ⟨k', v'⟩ := x
    by_cases hk : k' = k
    · simp only [dictSet, if_pos hk, List.mem_cons] at h
      rcases h with h | h
      · left; rw [h, hk]
      · right; simp [h]
    · simp only [dictSet, if_neg hk, List.mem_cons] at h
      rcases h with h | h
      · right; simp [h]
      · rcases ih h with h | h
        · exact Or.inl h
        · right; simp [h]

theorem lastTerms_spec (terms : List Term) : ((lastTerms terms).map Prod.fst).Nodup ∧
    (∀ k, k ∈ (lastTerms terms).map Prod.fst ↔ ∃ t ∈ terms, t.hashTerm = k) ∧
    ∀ e ∈ lastTerms terms, e.2 ∈ terms ∧ e.2.hashTerm = e.1 := by
  unfold lastTerms
  induction terms using List.reverseRecOn with
  | nil => simp
  | append_singleton terms t ih =>
    obtain ⟨h1, h2, h3⟩ := ih
    rw [List.foldl_append, List.foldl_cons, List.foldl_nil]
    refine ⟨?_, ?_, ?_⟩
    · rw [dictSet_keys]
      split
      · exact h1
      · next h => exact List.nodup_append.2 ⟨h1, by simp, by rintro a ha b hb rfl; simp at hb; exact h (hb ▸ ha)⟩
    · intro k
      rw [dictSet_keys]
      split
      · next h =>
        rw [h2]
        constructor
        · rintro ⟨x, hx, e⟩; exact ⟨x, by simp [hx], e⟩
        · rintro ⟨x, hx, e⟩
          rcases List.mem_append.1 hx with hx | hx
          · exact ⟨x, hx, e⟩
          · rw [List.mem_singleton.1 hx] at e
            rw [h2] at h; rw [e] at h; exact h
      · rw [List.mem_append, h2]
        constructor
        · rintro (⟨x, hx, e⟩ | h)
          · exact ⟨x, by simp [hx], e⟩
          · exact ⟨t, by simp, (List.mem_singleton.1 h).symm⟩
        · rintro ⟨x, hx, e⟩
          rcases List.mem_append.1 hx with hx | hx
          · exact Or.inl ⟨x, hx, e⟩
          · rw [List.mem_singleton.1 hx] at e; exact Or.inr (by simp [e])
    · intro e he
      rcases mem_dictSet he with rfl | he
      · exact ⟨by simp, rfl⟩
      · obtain ⟨a, b⟩ := h3 e he; exact ⟨by simp [a], b⟩

theorem termCoeffs_sum {ty : IType} {terms : List Term} (h : Regular ty terms) {t : Term} (ht : t ∈ terms) :
    (dictGet (termCoeffs terms) t.hashTerm).sum = totalCoeff terms t := by
  unfold termCoeffs totalCoeff
  rw [dictGet_dictCollect, List.filter_map, List.map_map]
  congr 1
  have : (terms.filter ((fun e : PyStr × ℚ => decide (e.1 = t.hashTerm)) ∘ fun t => (t.hashTerm, t.coeff))) =
      terms.filter fun t' => t'.Same t := by
    refine List.filter_congr fun x hx => ?_
    simp only [Function.comp_apply]
    rw [decide_eq_decide]
    exact h.same_iff hx ht
  rw [this]
  rfl

theorem totalCoeff_congr {terms : List Term} {t t' : Term} (h : t.Same t') : totalCoeff terms t = totalCoeff terms t' := by
  unfold totalCoeff
  congr 2
  refine List.filter_congr fun x _ => ?_
  rw [decide_eq_decide]
  unfold Term.Same
  rw [h.1, h.2]

/-- The list before sorting. -/
def combinedList (terms : List Term) : List Term :=
  ((lastTerms terms).map fun e => { e.2 with coeff := (dictGet (termCoeffs terms) e.1).sum }).filter fun t => !t.isVoid

theorem combinedList_spec {ty : IType} {terms : List Term} (h : Regular ty terms) :
    (∀ c ts op, (∃ x ∈ combinedList terms, x.visible = (c, ts, op)) ↔
      ∃ t ∈ terms, t.tensors = ts ∧ t.sqOp = op ∧ c = totalCoeff terms t ∧ 1 / 10 ^ 15 ≤ |c|) ∧
    (combinedList terms).Pairwise (fun x y => ¬ x.Same y) := by
  obtain ⟨h1, h2, h3⟩ := lastTerms_spec terms
  constructor
  · intro c ts op
    constructor
    · rintro ⟨x, hx, hv⟩
      unfold combinedList at hx
      rw [List.mem_filter, List.mem_map] at hx
      obtain ⟨⟨e, he, rfl⟩, hvoid⟩ := hx
      obtain ⟨a, b⟩ := h3 e he
      rw [← b, termCoeffs_sum h a] at hv hvoid
      simp only [Term.visible, Prod.mk.injEq] at hv
      refine ⟨e.2, a, hv.2.1, hv.2.2, hv.1.symm, ?_⟩
      simp only [Term.isVoid, Bool.not_eq_true', decide_eq_false_iff_not, not_lt] at hvoid
      rw [← hv.1]; exact hvoid
    · rintro ⟨t, ht, rfl, rfl, rfl, hc⟩
      obtain ⟨e, he, hk⟩ := List.mem_map.1 ((h2 t.hashTerm).2 ⟨t, ht, rfl⟩)
      obtain ⟨a, b⟩ := h3 e he
      have hs : e.2.Same t := (h.same_iff a ht).1 (b.trans hk)
      have hsum : (dictGet (termCoeffs terms) e.1).sum = totalCoeff terms t := by rw [hk, termCoeffs_sum h ht]
      refine ⟨{ e.2 with coeff := (dictGet (termCoeffs terms) e.1).sum }, ?_, ?_⟩
      · unfold combinedList
        rw [List.mem_filter]
        refine ⟨List.mem_map.2 ⟨e, he, rfl⟩, ?_⟩
        simp only [Term.isVoid, Bool.not_eq_true', decide_eq_false_iff_not, not_lt, hsum]
        exact hc
      · simp only [Term.visible, hsum, hs.1, hs.2]
  · unfold combinedList
    apply List.Pairwise.filter
    rw [List.pairwise_map]
    have := List.pairwise_map.1 h1
    refine this.imp_of_mem ?_
    intro x y hx hy hne hs
    apply hne
    obtain ⟨a, b⟩ := h3 x hx
    obtain ⟨a', b'⟩ := h3 y hy
    rw [← b, ← b']
    exact (h.same_iff a a').2 hs

theorem combineTerms_eq {ty : IType} {terms : List Term} (h : Regular ty terms) :
    combineTerms terms = .ok (sortedTerms (combinedList terms)) := by
  unfold combineTerms sortTerms
  rw [if_neg]
  · rfl
  · intro hc
    rw [List.any_eq_true] at hc
    obtain ⟨x, hx, hc⟩ := hc
    rw [List.any_eq_true] at hc
    obtain ⟨y, hy, hc⟩ := hc
    have key : ∀ x ∈ combinedList terms, x.sqOp.upper.ty = ty := by
      intro x hx
      obtain ⟨t, ht, -, e, -⟩ := ((combinedList_spec h).1 _ _ _).1 ⟨x, hx, rfl⟩
      rw [← e]; exact (h.op t ht).1
    rw [decide_eq_true_eq] at hc
    exact hc ((key x hx).trans (key y hy).symm)

theorem map_cmpKey_inj {ts ts' : List Tensor} (hk : ∀ x ∈ ts, ∀ y ∈ ts', x.name = y.name → x.cls = y.cls ∧ x.priority = y.priority)
    (ht : ∀ x ∈ ts, ∀ y ∈ ts', x.upper.ty = y.upper.ty ∧ x.lower.ty = y.lower.ty)
    (h : ts.map Tensor.cmpKey = ts'.map Tensor.cmpKey) : ts = ts' := by
  induction ts generalizing ts' with
  | nil => cases ts' with
    | nil => rfl
    | cons _ _ => simp at h
  | cons x ts ih =>
    cases ts' with
    | nil => simp at h
    | cons y ts' =>
      simp only [List.map_cons, List.cons.injEq] at h
      obtain ⟨-, h2, h3, h4⟩ := (Tensor.cmpKey_eq_iff x y).1 h.1
      obtain ⟨k1, k2⟩ := hk x (by simp) y (by simp) h2
      obtain ⟨t1, t2⟩ := ht x (by simp) y (by simp)
      have e1 := Indices.ext' t1 h3
      have e2 := Indices.ext' t2 h4
      have : x = y := by
        obtain ⟨c, n, p, ⟨u, l⟩⟩ := x
        obtain ⟨c', n', p', ⟨u', l'⟩⟩ := y
        simp only [Tensor.upper, Tensor.lower] at *
        rw [k1, k2, h2, e1, e2]
      rw [this, ih (fun a ha b hb => hk a (by simp [ha]) b (by simp [hb])) (fun a ha b hb => ht a (by simp [ha]) b (by simp [hb])) h.2]

/-- On the terms of a regular list equal keys mean equal terms. -/
theorem Regular.same_of_key {ty : IType} {terms : List Term} (h : Regular ty terms) {t t' : Term} (ht : t ∈ terms) (ht' : t' ∈ terms)
    (h1 : t.sqOp.cmpKey = t'.sqOp.cmpKey) (h2 : t.tensors.map Tensor.cmpKey = t'.tensors.map Tensor.cmpKey) : t.Same t' := by
  refine ⟨map_cmpKey_inj (fun x hx y hy => h.kind t ht x hx t' ht' y hy) (fun x hx y hy => ?_) h2, ?_⟩
  · exact ⟨(h.tensor t ht x hx).1.trans (h.tensor t' ht' y hy).1.symm, (h.tensor t ht x hx).2.trans (h.tensor t' ht' y hy).2.symm⟩
  · obtain ⟨a, b⟩ := (IndicesPair.cmpKey_eq_iff _ _).1 h1
    exact IndicesPair.ext' (Indices.ext' ((h.op t ht).1.trans (h.op t' ht').1.symm) a) (Indices.ext' ((h.op t ht).2.trans (h.op t' ht').2.symm) b)

theorem combine_sorted {ty : IType} {terms : List Term} (h : Regular ty terms) :
    (sortedTerms (combinedList terms)).Pairwise fun x y => x.ltCore y = true := by
  have hp := sortedTerms_perm (combinedList terms)
  have hs := sortedTerms_sorted (combinedList terms)
  have hns : (sortedTerms (combinedList terms)).Pairwise fun x y => ¬ x.Same y :=
    hp.symm.pairwise (combinedList_spec h).2 fun hxy hyx => hxy ⟨hyx.1.symm, hyx.2.symm⟩
  refine (hs.and hns).imp_of_mem ?_
  intro x y hx hy hxy
  rw [Term.ltCore_eq] at *
  rcases term_totLt.tri x.cmpKey y.cmpKey with h1 | h1 | h1
  · exact h1
  · exfalso
    obtain ⟨a, b, -⟩ := (Term.cmpKey_eq_iff x y).1 h1
    obtain ⟨t, ht, e1, e2, -⟩ := ((combinedList_spec h).1 _ _ _).1 ⟨x, hp.mem_iff.1 hx, rfl⟩
    obtain ⟨t', ht', e1', e2', -⟩ := ((combinedList_spec h).1 _ _ _).1 ⟨y, hp.mem_iff.1 hy, rfl⟩
    rw [← e2, ← e2'] at a
    rw [← e1, ← e1'] at b
    have := h.same_of_key ht ht' a b
    exact hxy.2 ⟨by rw [← e1, ← e1', this.1], by rw [← e2, ← e2', this.2]⟩
  · rw [h1] at hxy; exact absurd hxy.1 (by decide)

/-- Sorted lists with the same visible terms are the same. -/
theorem visible_unique {l l' : List Term} (hl : l.Pairwise fun x y => x.ltCore y = true) (hl' : l'.Pairwise fun x y => x.ltCore y = true)
    (h : ∀ v, (∃ x ∈ l, x.visible = v) ↔ ∃ x ∈ l', x.visible = v) : l.map Term.visible = l'.map Term.visible := by
  let lift : ℚ × List Tensor × SqOp → Term := fun v => ⟨v.1, v.2.2, v.2.1, ∅, fun _ => 0, ∅⟩
  let R : ℚ × List Tensor × SqOp → ℚ × List Tensor × SqOp → Prop := fun a b => (lift a).ltCore (lift b) = true
  have hR : ∀ {m : List Term}, m.Pairwise (fun x y => x.ltCore y = true) → (m.map Term.visible).Pairwise R := by
    intro m hm; rw [List.pairwise_map]; exact hm
  have hirr : ∀ a, ¬ R a a := by
    intro a ha
    simp only [R, Term.ltCore_eq, term_totLt.irrefl] at ha
    exact absurd ha (by decide)
  have hnd : ∀ {m : List Term}, m.Pairwise (fun x y => x.ltCore y = true) → (m.map Term.visible).Nodup := by
    intro m hm
    refine (hR hm).imp ?_
    rintro a b hab rfl
    exact hirr a hab
  have hperm : (l.map Term.visible).Perm (l'.map Term.visible) := by
    rw [List.perm_ext_iff_of_nodup (hnd hl) (hnd hl')]
    intro v
    rw [List.mem_map, List.mem_map]
    exact h v
  refine hperm.eq_of_pairwise ?_ (hR hl) (hR hl')
  intro a b _ _ hab hba
  exfalso
  simp only [R, Term.ltCore_eq] at hab hba
  have := term_totLt.trans _ _ _ hab hba
  rw [term_totLt.irrefl] at this
  exact absurd this (by decide)

/-! ### Values -/

section
variable {M : Type} [AddCommGroup M] [Module ℚ M]

/-- Summing a function that is linear in the coefficient over terms. -/
theorem sum_terms_eq (g : List Tensor × SqOp → M) (S : Finset (List Tensor × SqOp)) : ∀ terms : List Term,
    (∀ t ∈ terms, (t.tensors, t.sqOp) ∈ S) →
    (terms.map fun t => t.coeff • g (t.tensors, t.sqOp)).sum =
      ∑ s ∈ S, ((terms.filter fun t' => (t'.tensors, t'.sqOp) = s).map Term.coeff).sum • g s := by
  intro terms
  induction terms with
  | nil => intro _; simp
  | cons t terms ih =>
    intro h
    have e : ∀ s, (((t :: terms).filter fun t' => (t'.tensors, t'.sqOp) = s).map Term.coeff).sum =
        (if (t.tensors, t.sqOp) = s then t.coeff else 0) + ((terms.filter fun t' => (t'.tensors, t'.sqOp) = s).map Term.coeff).sum := by
      intro s
      by_cases hs : (t.tensors, t.sqOp) = s
      · simp [hs]
      · simp [hs]
    simp only [e, add_smul, Finset.sum_add_distrib]
    rw [List.map_cons, List.sum_cons, ih fun x hx => h x (by simp [hx])]
    congr 1
    rw [Finset.sum_eq_single (t.tensors, t.sqOp)]
    · simp
    · intro b _ hb; rw [if_neg (Ne.symm hb), zero_smul]
    · intro hn; exact absurd (h t (by simp)) hn

end

/-! ### Total coefficients -/

theorem totalCoeff_append (l l' : List Term) (t : Term) : totalCoeff (l ++ l') t = totalCoeff l t + totalCoeff l' t := by
  simp [totalCoeff, List.filter_append]

theorem totalCoeff_perm {l l' : List Term} (h : l.Perm l') (t : Term) : totalCoeff l t = totalCoeff l' t :=
  ((h.filter _).map _).sum_eq

theorem exists_of_totalCoeff_ne {terms : List Term} {t : Term} (h : totalCoeff terms t ≠ 0) : ∃ t' ∈ terms, t'.Same t := by
  by_contra hn
  push Not at hn
  apply h
  unfold totalCoeff
  rw [List.filter_eq_nil_iff.2 (by intro x hx; simpa using hn x hx)]
  rfl

theorem threshold_ne {c : ℚ} (h : 1 / 10 ^ 15 ≤ |c|) : c ≠ 0 := by
  rintro rfl
  rw [abs_zero] at h
  exact absurd h (by norm_num)

theorem mem_combine_iff {ty : IType} {terms : List Term} (h : Regular ty terms) (v : ℚ × List Tensor × SqOp) :
    (∃ x ∈ sortedTerms (combinedList terms), x.visible = v) ↔
      ∃ t : Term, t.tensors = v.2.1 ∧ t.sqOp = v.2.2 ∧ v.1 = totalCoeff terms t ∧ 1 / 10 ^ 15 ≤ |v.1| := by
  have hp := sortedTerms_perm (combinedList terms)
  simp only [hp.mem_iff]
  rw [show v = (v.1, v.2.1, v.2.2) from rfl, (combinedList_spec h).1]
  constructor
  · rintro ⟨t, -, a⟩; exact ⟨t, a⟩
  · rintro ⟨t, a, b, c, d⟩
    simp only at a b c d
    obtain ⟨t', ht', hs⟩ := exists_of_totalCoeff_ne (terms := terms) (t := t) (by rw [← c]; exact threshold_ne d)
    exact ⟨t', ht', hs.1.trans a, hs.2.trans b, by rw [c]; exact (totalCoeff_congr hs).symm, d⟩

/-- The result is determined by the total coefficients. -/
theorem combine_visible_of_total {ty ty' : IType} {terms terms' : List Term} (h : Regular ty terms) (h' : Regular ty' terms')
    (ht : ∀ t, totalCoeff terms t = totalCoeff terms' t) :
    (sortedTerms (combinedList terms)).map Term.visible = (sortedTerms (combinedList terms')).map Term.visible := by
  refine visible_unique (combine_sorted h) (combine_sorted h') fun v => ?_
  rw [mem_combine_iff h, mem_combine_iff h']
  simp only [ht]

theorem totalCoeff_eq_of_mem {l : List Term} (hl : l.Pairwise fun x y => ¬ x.Same y) {x : Term} (hx : x ∈ l) : totalCoeff l x = x.coeff := by
  induction l with
  | nil => simp at hx
  | cons a l ih =>
    rw [List.pairwise_cons] at hl
    have hrefl : ∀ a : Term, a.Same a := fun a => ⟨rfl, rfl⟩
    have e : a :: l = [a] ++ l := rfl
    rw [e, totalCoeff_append]
    rcases List.mem_cons.1 hx with rfl | hx'
    · have h0 : totalCoeff l x = 0 := by
        by_contra h
        obtain ⟨t, ht, hs⟩ := exists_of_totalCoeff_ne h
        exact hl.1 t ht ⟨hs.1.symm, hs.2.symm⟩
      rw [h0, add_zero]
      simp [totalCoeff, hrefl x]
    · rw [ih hl.2 hx']
      have : ¬ a.Same x := hl.1 x hx'
      simp [totalCoeff, this]

theorem Term.Same.symm {t t' : Term} (h : t.Same t') : t'.Same t := ⟨h.1.symm, h.2.symm⟩
theorem Term.Same.trans {a b c : Term} (h : a.Same b) (h' : b.Same c) : a.Same c := ⟨h.1.trans h'.1, h.2.trans h'.2⟩

theorem combine_notSame {ty : IType} {terms : List Term} (h : Regular ty terms) :
    (sortedTerms (combinedList terms)).Pairwise fun x y => ¬ x.Same y :=
  (sortedTerms_perm (combinedList terms)).symm.pairwise (combinedList_spec h).2 fun hxy hyx => hxy hyx.symm

theorem totalCoeff_combine {ty : IType} {terms : List Term} (h : Regular ty terms) (t : Term) :
    totalCoeff (sortedTerms (combinedList terms)) t = if 1 / 10 ^ 15 ≤ |totalCoeff terms t| then totalCoeff terms t else 0 := by
  split
  · next hc =>
    obtain ⟨x, hx, hv⟩ := (mem_combine_iff h (totalCoeff terms t, t.tensors, t.sqOp)).2 ⟨t, rfl, rfl, rfl, hc⟩
    simp only [Term.visible, Prod.mk.injEq] at hv
    have hs : x.Same t := ⟨hv.2.1, hv.2.2⟩
    rw [← totalCoeff_congr hs, totalCoeff_eq_of_mem (combine_notSame h) hx, hv.1]
  · next hc =>
    by_contra hne
    obtain ⟨x, hx, hs⟩ := exists_of_totalCoeff_ne hne
    obtain ⟨t', a, b, c, d⟩ := (mem_combine_iff h x.visible).1 ⟨x, hx, rfl⟩
    have hs' : t'.Same t := Term.Same.trans ⟨a, b⟩ hs
    rw [c, totalCoeff_congr hs'] at d
    exact hc d

theorem Regular.of_same {ty : IType} {l l' : List Term} (h : Regular ty l) (hs : ∀ x ∈ l', ∃ t ∈ l, x.Same t) : Regular ty l' where
  name t ht x hx := by
    obtain ⟨t', ht', e⟩ := hs t ht
    exact h.name t' ht' x (e.1 ▸ hx)
  kind t ht x hx t2 ht2 y hy := by
    obtain ⟨t', ht', e⟩ := hs t ht
    obtain ⟨t2', ht2', e2⟩ := hs t2 ht2
    exact h.kind t' ht' x (e.1 ▸ hx) t2' ht2' y (e2.1 ▸ hy)
  tensor t ht x hx := by
    obtain ⟨t', ht', e⟩ := hs t ht
    exact h.tensor t' ht' x (e.1 ▸ hx)
  op t ht := by
    obtain ⟨t', ht', e⟩ := hs t ht
    rw [e.2]; exact h.op t' ht'

theorem Regular.subset {ty : IType} {l l' : List Term} (h : Regular ty l) (hs : ∀ x ∈ l', x ∈ l) : Regular ty l' :=
  h.of_same fun x hx => ⟨x, hs x hx, rfl, rfl⟩

theorem mem_combine_same {ty : IType} {terms : List Term} (h : Regular ty terms) {x : Term} (hx : x ∈ sortedTerms (combinedList terms)) :
    ∃ t ∈ terms, x.Same t := by
  obtain ⟨t, ht, a, b, -⟩ := ((combinedList_spec h).1 _ _ _).1 ⟨x, (sortedTerms_perm _).mem_iff.1 hx, rfl⟩
  exact ⟨t, ht, a.symm, b.symm⟩

theorem Regular.combine {ty : IType} {terms : List Term} (h : Regular ty terms) : Regular ty (sortedTerms (combinedList terms)) :=
  h.of_same fun _ hx => mem_combine_same h hx

end Dsrg
